import Verif.Props.ArgumentSame
import Verif.Props.TableLookup

/-!
# Circuits that look into the hash table

`/repo/spec/hash-table.md`: the table "can be looked up by the MPT and codehash circuits", and its first row is "filled with
0 for any lookup which is not enabled". The columns are those the caller hands to `configure_sub`,
`/repo/poseidon-circuit/src/hash.rs`, lines 80-92.
-/

set_option linter.unusedVariables false

namespace Props
open Halo2 Circuit Circuit.Table Base.Bn256 Polynomial

/-! ### Lookups into the table -/

/-- The lookup of another circuit into the hash table: on the rows where `q` is one the six expressions `es` must be in
an enabled row of the table. -/
def tableLookup (qEnable : ℕ) (ht : Fin 6 → ℕ) (q : Expr Fr) (es : Fin 6 → Expr Fr) : Wide Fr :=
  ⟨(q, .fixed qEnable 0) :: List.ofFn fun i => (es i, .advice (ht i) 0)⟩

theorem tableLookup_holds {qEnable : ℕ} {ht : Fin 6 → ℕ} {q : Expr Fr} {es : Fin 6 → Expr Fr} {g : Grid Fr}
    (hu : g.usable ≤ g.n) : (tableLookup qEnable ht q es).Holds g ↔ ∀ row < g.usable, ∃ r < g.usable,
      q.eval g row = g.fixed qEnable r ∧ ∀ i, (es i).eval g row = g.advice (ht i) r := by
  unfold Wide.Holds tableLookup
  refine forall₂_congr fun row hrow => exists_congr fun r => and_congr_right fun hr => ?_
  simp only [List.mem_cons, List.mem_ofFn, forall_eq_or_imp, forall_exists_index, forall_apply_eq_imp_iff,
    Expr.eval, g.rot_zero (lt_of_lt_of_le hr hu)]

/-- What the circuit looks up on the rows where it does is in the table that the prover commits to, which is an accepted
one. -/
theorem C92_answers {x : Run Fr} {k : ChipKind} {short : Bool} (hbn : x.IsBn k short) (hx : x.Legal)
    {L' : Layouter Fr} (hL : x.Loads L') {post : List (Op Fr)} {cs : CS Fr}
    {ws : List (Wide Fr)} (hgates : ∀ p ∈ x.newGates, p ∈ cs.gates) (hlookups : ∀ l ∈ x.newLookups, l ∈ cs.lookups)
    (quietFixed : ∀ o ∈ x.before.ops ++ post, ∀ c r v, o.FixedWrite c r v → ¬ x.FixedCol c)
    (quietSel : ∀ c r, Op.selector c r ∈ x.before.ops ++ post → ¬ x.Sel c) {n : ℕ} {ω δ : Fr} {K : Key Fr}
    (hK : keygenWith cs ws (L'.ops ++ post) n ω δ = .ok K) (hω : IsPrimitiveRoot ω n) (hδ : DistinctNames cs n ω δ)
    {P : Prover Fr} (hP : P.Short n) (hlt : K.slack * Base.Bn256.r ^ 4 < Nat.card {c // P.Convinces K c})
    {q : Expr Fr} {es : Fin 6 → Expr Fr} (hw : tableLookup x.qEnable x.hashTable q es ∈ ws) :
    x.Accepted k short L' post (K.grid P.advice) ∧ ∀ row < K.usable, q.eval (K.grid P.advice) row = 1 →
      Answers x (K.grid P.advice) fun i => (es i).eval (K.grid P.advice) row := by
  have hacc := (C87_sound hbn hx hL hgates hlookups quietFixed quietSel hK hω hδ hP).resolve_right (not_le.mpr hlt)
  have hwide : ∀ w ∈ ws, w.Holds (K.grid P.advice) := by
    rcases C86_sound hK hω hδ hP with ⟨-, h, -⟩ | h
    · exact h
    · exact absurd (h.trans_eq (congrArg (fun q => K.slack * q ^ 4) (ZMod.card Base.Bn256.r))) (not_le.mpr hlt)
  refine ⟨hacc, fun row h1 h2 => ?_⟩
  obtain ⟨r, hr, e1, e2⟩ := (tableLookup_holds hacc.laid.usable_le).mp (hwide _ hw) row h1
  exact ⟨r, hr, by rw [← e1, h2], fun i => (e2 i).symm⟩

/-- **C92.** Soundness of lookups into the hash table, against a prover with polynomials: in any circuit with a key, if
the verifier is convinced for more than `K.slack` in `r` of all challenges, then what the circuit looks up, on all rows
where it does, is in one accepted hash table. C66 says what that means. -/
theorem C92_lookup {x : Run Fr} {k : ChipKind} {short : Bool} (hbn : x.IsBn k short) (hx : x.Legal)
    (hstep : x.step = x.STEP) {L' : Layouter Fr} (hL : x.Loads L') {post : List (Op Fr)} {cs : CS Fr}
    {ws : List (Wide Fr)} (hgates : ∀ p ∈ x.newGates, p ∈ cs.gates) (hlookups : ∀ l ∈ x.newLookups, l ∈ cs.lookups)
    (quietFixed : ∀ o ∈ x.before.ops ++ post, ∀ c r v, o.FixedWrite c r v → ¬ x.FixedCol c)
    (quietSel : ∀ c r, Op.selector c r ∈ x.before.ops ++ post → ¬ x.Sel c) {n : ℕ} {ω δ : Fr} {K : Key Fr}
    (hK : keygenWith cs ws (L'.ops ++ post) n ω δ = .ok K) (hω : IsPrimitiveRoot ω n) (hδ : DistinctNames cs n ω δ)
    {P : Prover Fr} (hP : P.Short n) (hlt : K.slack * Base.Bn256.r ^ 4 < Nat.card {c // P.Convinces K c})
    {q : Expr Fr} {es : Fin 6 → Expr Fr} (hw : tableLookup x.qEnable x.hashTable q es ∈ ws) {rows : List ℕ}
    (hrows : ∀ row ∈ rows, row < K.usable ∧ q.eval (K.grid P.advice) row = 1) :
    Lookups k short x.legacy x.mode x.STEP (rows.map fun row i => (es i).eval (K.grid P.advice) row) := by
  obtain ⟨hacc, h⟩ := C92_answers hbn hx hL hgates hlookups quietFixed quietSel hK hω hδ hP hlt hw
  refine ⟨x, L', post, K.grid P.advice, hacc, rfl, rfl, rfl, hstep, fun t ht => ?_⟩
  obtain ⟨row, hrow, rfl⟩ := List.mem_map.mp ht
  exact h row (hrows row hrow).1 (hrows row hrow).2

/-- A circuit that looks up a digest, two words and a domain with control 0 and head 1 has the digest of the two words,
or the words are both zero. -/
theorem C92_mpt {x : Run Fr} {k : ChipKind} {short : Bool} (short' : Bool) (hbn : x.IsBn k short) (hx : x.Legal)
    (hstep : x.step = x.STEP) (hpos : 0 < x.STEP) (hS : x.STEP < 2 ^ 63) {L' : Layouter Fr} (hL : x.Loads L')
    {post : List (Op Fr)} {cs : CS Fr} {ws : List (Wide Fr)} (hgates : ∀ p ∈ x.newGates, p ∈ cs.gates)
    (hlookups : ∀ l ∈ x.newLookups, l ∈ cs.lookups)
    (quietFixed : ∀ o ∈ x.before.ops ++ post, ∀ c r v, o.FixedWrite c r v → ¬ x.FixedCol c)
    (quietSel : ∀ c r, Op.selector c r ∈ x.before.ops ++ post → ¬ x.Sel c) {n : ℕ} {ω δ : Fr} {K : Key Fr}
    (hK : keygenWith cs ws (L'.ops ++ post) n ω δ = .ok K) (hω : IsPrimitiveRoot ω n) (hδ : DistinctNames cs n ω δ)
    {P : Prover Fr} (hP : P.Short n) (hlt : K.slack * Base.Bn256.r ^ 4 < Nat.card {c // P.Convinces K c})
    {q : Expr Fr} {es : Fin 6 → Expr Fr} (hw : tableLookup x.qEnable x.hashTable q es ∈ ws) {row : ℕ}
    (hrow : row < K.usable) {g : Grid Fr} (hg : g = K.grid P.advice) (hq : q.eval g row = 1)
    (h3 : (es 3).eval g row = 0) (h5 : (es 5).eval g row = 1) :
    hashWithDomainFr short' ![(es 1).eval g row, (es 2).eval g row] ((es 4).eval g row) = .ok ((es 0).eval g row) ∨
      ((es 1).eval g row = 0 ∧ (es 2).eval g row = 0) := by
  subst hg
  have h := C92_lookup hbn hx hstep hL hgates hlookups quietFixed quietSel hK hω hδ hP hlt hw (rows := [row])
    (by simpa using ⟨hrow, hq⟩)
  rw [List.map_singleton] at h
  refine (C66_mpt k short short' x.legacy x.mode hpos hS _ _ _ _).mp ?_
  convert h using 2
  funext i
  fin_cases i <;> simp [h3, h5]

/-! ### A circuit with a table and requests -/

/-- A circuit with the hash table and four more advice columns, for requests: digest, two words, domain; fixed column 1
tells where a request is. (A model of the circuits that use the crate; no such circuit is in the repository.) -/
def hostRun (ch : Chip Fr 3) (short legacy : Bool) (mode : LoadMode) (STEP : ℕ) (t : HashTable Fr) (calcs : ℕ) :
    Run Fr :=
  { testRun ch short legacy mode STEP t calcs with cs := ⟨10, 2, 0, [], [], []⟩ }

/-- The lookup of the requests. -/
def hostLookup : Wide Fr :=
  tableLookup 0 (fun i => i) (.fixed 1 0) ![.mul (.fixed 1 0) (.advice 6 0), .mul (.fixed 1 0) (.advice 7 0),
    .mul (.fixed 1 0) (.advice 8 0), .const 0, .mul (.fixed 1 0) (.advice 9 0), .fixed 1 0]

/-- The rows of the requests, in `q` columns. -/
def hostOps {q : ℕ} (m : ℕ) (v : ℕ → Fin q → Fr) : List (Op Fr) :=
  (List.range m).flatMap fun i => .fixed 1 i 1 :: List.ofFn fun j => .advice (6 + j) i (v i j)

/-- The table that answers the requests. -/
def hostTable (m : ℕ) (v : ℕ → Fin 4 → Fr) : HashTable Fr :=
  ⟨(List.range m).map fun i => (v i 1, v i 2), [], (List.range m).map fun i => some (v i 3), []⟩

theorem mem_hostOps {q m : ℕ} {v : ℕ → Fin q → Fr} {o : Op Fr} :
    o ∈ hostOps m v ↔ ∃ i < m, o = .fixed 1 i 1 ∨ ∃ j : Fin q, o = .advice (6 + j) i (v i j) := by
  unfold hostOps
  simp only [List.mem_flatMap, List.mem_range, List.mem_cons, List.mem_ofFn, eq_comm]

theorem hostLookup_rots (c : ℕ) : wideRots [hostLookup] c ⊆ {0} ∧ (10 ≤ c → wideRots [hostLookup] c = ∅) := by
  have key : ∀ k, k ∈ wideRots [hostLookup] c → k = 0 ∧ c < 10 := by
    intro k hk
    simp only [wideRots, hostLookup, tableLookup, List.flatMap_cons, List.flatMap_nil, List.append_nil,
      List.mem_toFinset, List.mem_filterMap, List.mem_append, List.mem_flatMap, List.mem_ofFn, Prod.exists] at hk
    obtain ⟨col, k', h, hk⟩ := hk
    split_ifs at hk with hc
    simp only [Option.some.injEq] at hk
    subst hk
    subst hc
    rcases h with h | ⟨a, b, ⟨i, hi⟩, h⟩
    · simp [Expr.queries] at h
    · obtain ⟨rfl, rfl⟩ := Prod.mk.inj hi
      fin_cases i <;> simp [Expr.queries] at h <;> omega
  refine ⟨fun k hk => by simp [(key k hk).1], fun hc => ?_⟩
  refine Finset.eq_empty_of_forall_notMem fun k hk => ?_
  have := (key k hk).2
  omega

theorem hostLookup_degree : hostLookup.degree ≤ 6 := by
  simp [hostLookup, tableLookup, Wide.degree, List.ofFn_succ, Expr.degree]

section Host
variable {k : ChipKind} {ch : Chip Fr 3} {short legacy : Bool} {mode : LoadMode} {STEP calcs : ℕ} {t : HashTable Fr}

theorem hostRun_legal (hS : STEP < 2 ^ 64) (hc : calcs < 2 ^ 64) (ht : ∀ c ∈ t.controls, c < 2 ^ 64) :
    (hostRun ch short legacy mode STEP t calcs).Legal :=
  ⟨fun i => lt_of_lt_of_le i.isLt (by simp [hostRun]), fun i j h => Fin.ext h, by simp [hostRun, testRun], hS, hS, hc, ht⟩

theorem host_blinding {x : Run Fr} (hbn : x.IsBn k short) (hx : x.Legal) (e0 : x.cs = ⟨10, 2, 0, [], [], []⟩) :
    x.configured.2.blindingWith [hostLookup] = 5 := by
  have h0 : ∀ c, x.cs.rots c = ∅ := by rw [e0]; intro c; rfl
  obtain ⟨h1, h2⟩ := C76_rotations hbn hx (fun c _ => h0 c)
  unfold CS.blindingWith
  have : ((Finset.range x.configured.2.numAdvice).sup fun c =>
      (x.configured.2.rots c ∪ wideRots [hostLookup] c).card) ≤ 3 := by
    refine Finset.sup_le fun c hc => ?_
    rw [Finset.mem_range] at hc
    have e10 : x.cs.numAdvice = 10 := by rw [e0]
    by_cases hc' : c < 10
    · rw [h1 c (by omega), hostQueries, h0, Finset.empty_union]
      have hsub : ((Finset.univ.filter fun i => x.hashTable i = c).biUnion tableRots) ∪ wideRots [hostLookup] c ⊆
          ({-1, 0} : Finset ℤ) := by
        refine Finset.union_subset (Finset.biUnion_subset.mpr fun i _ => ?_)
          ((hostLookup_rots c).1.trans (by simp))
        fin_cases i <;> simp [tableRots]
      exact (Finset.card_le_card hsub).trans (by decide)
    · rw [(hostLookup_rots c).2 (by omega), Finset.union_empty]
      exact h2 c (by omega) hc
  omega

/-- Nothing in the operations of `load` touches the columns of the requests. -/
theorem host_quiet {x : Run Fr} (hbn : x.IsBn k short) (hx : x.Legal) {q : ℕ} (ea : x.cs.numAdvice = 6 + q) (ef : x.cs.numFixed = 2)
    (eq : x.qEnable = 0) (eh : ∀ i, x.hashTable i = i) (eb : x.before.ops = []) {L' : Layouter Fr} (hL : x.Loads L') :
    (∀ o ∈ L'.ops, ∀ r v, ¬ o.FixedWrite 1 r v) ∧ (∀ c r v, 6 ≤ c → c < 6 + q → Op.advice c r v ∉ L'.ops) ∧
    ¬ x.FixedCol 1 ∧ ∀ c, 6 ≤ c → c < 6 + q → ¬ x.AdviceCol c := by
  obtain ⟨h1, h2⟩ := newOps_own hbn hx hL
  rw [eb, List.nil_append] at h1
  have hf : ¬ x.FixedCol 1 := by
    unfold Run.FixedCol
    rw [eq, ef]
    simp
  have ha : ∀ c, 6 ≤ c → c < 6 + q → ¬ x.AdviceCol c := by
    intro c h6 h10 h
    unfold Run.AdviceCol at h
    rw [ea] at h
    rcases h with ⟨i, rfl⟩ | ⟨h, -⟩
    · rw [eh] at h6
      omega
    · omega
  refine ⟨fun o ho r v hw => ?_, fun c r v h6 h10 ho => ?_, hf, ha⟩
  · exact hf (h2 o (h1 ▸ ho) (.fixed 1) r hw.hits.1)
  · exact ha c h6 h10 (h2 (.advice c r v) (h1 ▸ ho) (.advice c) r ⟨rfl, rfl⟩)

/-- The key marks the rows of the requests. -/
theorem host_flag {x : Run Fr} (hbn : x.IsBn k short) (hx : x.Legal) {q : ℕ} (ea : x.cs.numAdvice = 6 + q) (ef : x.cs.numFixed = 2)
    (eq : x.qEnable = 0) (eh : ∀ i, x.hashTable i = i) (eb : x.before.ops = []) {L' : Layouter Fr} (hL : x.Loads L')
    {m : ℕ} {v : ℕ → Fin q → Fr} {cs : CS Fr} {ws : List (Wide Fr)} {n : ℕ} {ω δ : Fr} {K : Key Fr}
    (hK : keygenWith cs ws (L'.ops ++ hostOps m v) n ω δ = .ok K) (row : ℕ) :
    K.fixed 1 row = if row < m then 1 else 0 := by
  obtain ⟨h1, -⟩ := host_quiet hbn hx ea ef eq eh eb hL
  have hnofill : ∀ r' v', Op.fill 1 r' v' ∉ L'.ops ++ hostOps m v := by
    intro r' v' hm
    rcases List.mem_append.mp hm with hm | hm
    · exact h1 _ hm r' v' (Or.inr ⟨r', le_rfl, rfl⟩)
    · obtain ⟨i, -, h | ⟨j, h⟩⟩ := mem_hostOps.mp hm <;> cases h
  have hwr : ∀ o ∈ L'.ops ++ hostOps m v, ∀ v', o.FixedWrite 1 row v' → row < m ∧ v' = 1 := by
    intro o hm v' hw
    rcases List.mem_append.mp hm with hm | hm
    · exact absurd hw (h1 _ hm row v')
    · obtain ⟨i, hi, rfl | ⟨j, rfl⟩⟩ := mem_hostOps.mp hm
      · rcases hw with hw | ⟨r', -, hw⟩ <;> cases hw
        exact ⟨hi, rfl⟩
      · rcases hw with hw | ⟨r', -, hw⟩ <;> cases hw
  obtain ⟨-, -, A, -, rfl⟩ := keygen_ok hK
  change keyFixed _ _ 1 row = _
  rw [keyFixed_eq fun r' v' hm => absurd hm (hnofill r' v')]
  split_ifs with hrow
  · refine finalFixed_eq ⟨.fixed 1 row 1, ?_, Or.inl rfl⟩ fun o ho v' hw => (hwr o ho v' hw).2
    exact List.mem_append_right _ (mem_hostOps.mpr ⟨row, hrow, Or.inl rfl⟩)
  · exact finalFixed_zero fun o ho v' hw => hrow (hwr o ho v' hw).1

/-- What the requests look up. -/
theorem hostLookup_holds {g : Grid Fr} (hu : g.usable ≤ g.n) {m : ℕ}
    (hflag : ∀ row, g.fixed 1 row = if row < m then 1 else 0) : hostLookup.Holds g ↔ ∀ row < g.usable, ∃ r < g.usable,
      if row < m then g.fixed 0 r = 1 ∧ g.advice 0 r = g.advice 6 row ∧ g.advice 1 r = g.advice 7 row ∧
        g.advice 2 r = g.advice 8 row ∧ g.advice 3 r = 0 ∧ g.advice 4 r = g.advice 9 row ∧ g.advice 5 r = 1
      else g.fixed 0 r = 0 ∧ ∀ i < 6, g.advice i r = 0 := by
  unfold hostLookup
  rw [tableLookup_holds hu]
  refine forall₂_congr fun row hrow => exists_congr fun r => and_congr_right fun hr => ?_
  have hrot : g.rot row 0 = row := g.rot_zero (lt_of_lt_of_le hrow hu)
  simp only [Expr.eval, hrot, hflag, Fin.forall_fin_succ, Matrix.cons_val_zero, Matrix.cons_val_succ]
  split_ifs with h
  · simp [eq_comm]
  · rw [eq_comm]
    refine and_congr_right fun _ => ?_
    constructor
    · intro h' i hi
      simp at h'
      obtain ⟨a0, a1, a2, a3, a4, a5⟩ := h'
      interval_cases i
      exacts [a0.symm, a1.symm, a2.symm, a3.symm, a4.symm, a5.symm]
    · intro h'
      simp [h']

theorem host_fits {x : Run Fr} (hbn : x.IsBn k short) (hx : x.Legal) (hf : x.Fresh) (eb : x.before.ops = [])
    {L' : Layouter Fr} (hL : x.load = .ok L') {q m u : ℕ} {v : ℕ → Fin q → Fr} (hm : m ≤ u) (h1 : x.STEP + 2 ≤ u)
    (h2 : x.calcs + 1 ≤ u) (h3 : k.rows * x.calcs ≤ u) : Fits (L'.ops ++ hostOps m v) u := by
  have hnew : x.newOps L' = L'.ops := by rw [Run.newOps, eb]; rfl
  have := (C64_rows hbn hx hL hf u).mpr ⟨h1, h2, h3⟩
  rw [hnew] at this
  intro o ho
  rcases List.mem_append.mp ho with ho | ho
  · exact this o ho
  · obtain ⟨i, hi, rfl | ⟨j, rfl⟩⟩ := mem_hostOps.mp ho <;> · simp only [Op.bottom]; omega

theorem host_keyOps {q : ℕ} (m : ℕ) (v w : ℕ → Fin q → Fr) : keyOps (hostOps m v) = keyOps (hostOps m w) := by
  unfold hostOps
  induction m with
  | zero => rfl
  | succ m ih =>
    rw [List.range_succ, List.flatMap_append, List.flatMap_append, keyOps_append, keyOps_append, ih]
    congr 1
    have : ∀ v : ℕ → Fin q → Fr, keyOps (List.ofFn fun j : Fin q => (.advice (6 + j) m (v m j) : Op Fr)) = [] := by
      intro v
      refine List.filter_eq_nil_iff.mpr fun o ho => ?_
      obtain ⟨j, rfl⟩ := List.mem_ofFn.mp ho
      simp
    have e : ∀ l : List (Op Fr), keyOps (.fixed 1 m 1 :: l) = keyOps [.fixed 1 m 1] ++ keyOps l :=
      fun l => keyOps_append [_] l
    rw [List.flatMap_singleton, List.flatMap_singleton, e (List.ofFn _), this v, e (List.ofFn _), this w]

/-- The key of the circuit does not depend on the requests nor on the table. -/
theorem host_key {x : Run Fr} (hbn : x.IsBn k short) (hx : x.Legal) (hf : x.Fresh) {L : Layouter Fr}
    (hL : x.load = .ok L) {t : HashTable Fr} (hx' : (x.reload t x.mode).Legal) {L' : Layouter Fr}
    (hL' : (x.reload t x.mode).load = .ok L') {q m : ℕ} (v w : ℕ → Fin q → Fr) (cs : CS Fr) (ws : List (Wide Fr)) (n : ℕ)
    (ω δ : Fr) : keygenWith cs ws (L.ops ++ hostOps m v) n ω δ = keygenWith cs ws (L'.ops ++ hostOps m w) n ω δ := by
  rw [C91_key hbn hx hL (Or.inl rfl) hx' hL']
  have hb : ∀ v w : ℕ → Fin q → Fr, ∀ u, Fits (hostOps m v) u → Fits (hostOps m w) u := by
    intro v w u h o ho
    obtain ⟨i, hi, hor⟩ := mem_hostOps.mp ho
    have := h _ (mem_hostOps.mpr ⟨i, hi, Or.inl rfl⟩)
    simp only [Op.bottom] at this
    rcases hor with rfl | ⟨j, rfl⟩ <;> exact this
  have hfa : ∀ (a b : List (Op Fr)) (u : ℕ), Fits (a ++ b) u ↔ Fits a u ∧ Fits b u := by
    intro a b u
    unfold Fits
    simp only [List.mem_append, or_imp, forall_and]
  refine keygen_congr (fun u => ?_) ?_ (fun c r => ?_) n ω δ
  · rw [hfa, hfa]
    exact and_congr_right fun _ => ⟨hb v w u, hb w v u⟩
  · rw [keyOps_append, keyOps_append, host_keyOps m v w]
  · have hsel : ∀ v : ℕ → Fin q → Fr, Op.selector c r ∉ hostOps m v := by
      intro v h
      obtain ⟨i, -, h | ⟨j, h⟩⟩ := mem_hostOps.mp h <;> cases h
    have : ∀ v : ℕ → Fin q → Fr, finalSelector (L'.ops ++ hostOps m v) c r = true ↔ Op.selector c r ∈ L'.ops := by
      intro v
      rw [finalSelector_iff, List.mem_append]
      exact or_iff_left (hsel v)
    rw [Bool.eq_iff_iff, this, this]

end Host

/-- A prover that fails for at most `19 * 2^kk` in `r` of all challenges convinces for more than `58 * 2^kk` in `r`. -/
theorem enough {l c kk : ℕ} (hkk : kk ≤ 28) (hl : l ≤ 19 * 2 ^ kk) (h : Base.Bn256.r ^ 5 ≤ c + l * Base.Bn256.r ^ 4) :
    58 * 2 ^ kk * Base.Bn256.r ^ 4 < c := by
  have h28 : 2 ^ kk ≤ 2 ^ 28 := Nat.pow_le_pow_right (by norm_num) hkk
  have hr : (58 + 19) * 2 ^ kk < Base.Bn256.r :=
    lt_of_le_of_lt (Nat.mul_le_mul_left _ h28) (by norm_num [Base.Bn256.r])
  have h4 : 0 < Base.Bn256.r ^ 4 := by have := Nat.zero_lt_of_lt hr; positivity
  have hmul := Nat.mul_lt_mul_of_pos_right hr h4
  have e5 : Base.Bn256.r ^ 5 = Base.Bn256.r * Base.Bn256.r ^ 4 := by ring
  have hlo := Nat.mul_le_mul_right (Base.Bn256.r ^ 4) hl
  rw [e5] at h
  generalize Base.Bn256.r ^ 4 = q at *
  generalize Base.Bn256.r * q = w at *
  have e6 : (58 + 19) * 2 ^ kk * q = 58 * 2 ^ kk * q + 19 * 2 ^ kk * q := by ring
  omega

/-- **C93.** A circuit with a hash table and `m` requests for the digest of two words in a domain, looked up in the table, on
`2^kk` rows with the domain of bn256. The key, made before the requests are known, exists. With it, there is a prover with
given requests (not both words zero) that convinces the verifier for more than `58 * 2^kk` in `r` of all challenges, if and
only if in every request the digest is the hash of the words; and then there is one that fails for at most `19 * 2^kk` in
`r` of all challenges. -/
theorem C93_host {k : ChipKind} {ch : Chip Fr 3} (hch : bnChip k = .ok ch) (short short' legacy : Bool) (mode : LoadMode)
    {STEP calcs m kk : ℕ} (hpos : 0 < STEP) (hm : m < calcs) (hkk : kk ≤ 28) (h1 : STEP + 8 ≤ 2 ^ kk)
    (h2 : calcs + 7 ≤ 2 ^ kk) (h3 : k.rows * calcs + 6 ≤ 2 ^ kk) {x : Run Fr}
    (hx : x = hostRun ch short legacy mode STEP .empty calcs) :
    ∃ L, x.load = .ok L ∧ ∃ K,
      keygenWith x.configured.2 [hostLookup] (L.ops ++ hostOps (q := 4) m 0) (2 ^ kk) (omega kk) delta = .ok K ∧
      K.slack ≤ 58 * 2 ^ kk ∧ K.loss ≤ 19 * 2 ^ kk ∧
      ∀ v : ℕ → Fin 4 → Fr, (∀ i < m, ¬ (v i 1 = 0 ∧ v i 2 = 0)) →
        ((∃ P : Prover Fr, P.Short (2 ^ kk) ∧
            (∀ i < m, ∀ j : Fin 4, (P.advice (6 + j)).eval (omega kk ^ i) = v i j) ∧
            58 * 2 ^ kk * Base.Bn256.r ^ 4 < Nat.card {c // P.Convinces K c}) ↔
          ∀ i < m, hashWithDomainFr short' ![v i 1, v i 2] (v i 3) = .ok (v i 0)) ∧
        ((∀ i < m, hashWithDomainFr short' ![v i 1, v i 2] (v i 3) = .ok (v i 0)) → ∃ P : Prover Fr, P.Short (2 ^ kk) ∧
          (∀ i < m, ∀ j : Fin 4, (P.advice (6 + j)).eval (omega kk ^ i) = v i j) ∧
          Base.Bn256.r ^ 5 ≤ Nat.card {c // P.Convinces K c} + K.loss * Base.Bn256.r ^ 4) := by
  have h28 : 2 ^ kk ≤ 2 ^ 28 := Nat.pow_le_pow_right (by norm_num) hkk
  have hS : STEP < 2 ^ 63 := by omega
  have hc : calcs < 2 ^ 64 := by omega
  have hlegal : x.Legal := by rw [hx]; exact hostRun_legal (by omega) hc (by simp [HashTable.empty])
  have hbn : x.IsBn k short := by rw [hx]; exact ⟨hch, rfl⟩
  have eS : x.STEP = STEP := by rw [hx]; rfl
  have es : x.step = STEP := by rw [hx]; rfl
  have et : x.table = .empty := by rw [hx]; rfl
  have ec : x.calcs = calcs := by rw [hx]; rfl
  have el : x.legacy = legacy := by rw [hx]; rfl
  have eb : x.before.ops = [] := by rw [hx]; rfl
  have e0 : x.cs = ⟨10, 2, 0, [], [], []⟩ := by rw [hx]; rfl
  have eq : x.qEnable = 0 := by rw [hx]; rfl
  have eh : ∀ i, x.hashTable i = i := by rw [hx]; exact fun i => rfl
  have hf : x.Fresh := by rw [hx]; exact ⟨fun _ _ => rfl, fun _ _ => rfl, fun _ _ => rfl⟩
  have hbl := host_blinding hbn hlegal e0
  have hck : ∀ t : HashTable Fr, t.checks = [] → ChecksMatch legacy STEP t calcs := by
    intro t ht a m _ _ ck h
    simp [rowCk, ht] at h
  obtain ⟨L, hL⟩ := (C41_checks hbn hlegal).1.mpr
    ⟨fun _ => by rw [et]; simp [HashTable.empty], by rw [el, eS, et, ec]; exact hck _ rfl⟩
  have ea : x.cs.numAdvice = 6 + 4 := by rw [e0]
  have ef : x.cs.numFixed = 2 := by rw [e0]
  have hfits : ∀ v : ℕ → Fin 4 → Fr, Fits (L.ops ++ hostOps m v) (2 ^ kk - 6) := fun v =>
    host_fits hbn hlegal hf eb hL (by omega) (by omega) (by omega) (by rw [ec]; omega)
  obtain ⟨K, hK⟩ := (C87_keygen hbn hlegal (Or.inl hL) (post := hostOps (q := 4) m 0) (cs := x.configured.2) (ws := [hostLookup])
    (fun c h => h) (n := 2 ^ kk) (omega kk) delta (by
      intro a b h
      rw [eb, List.nil_append] at h
      obtain ⟨i, -, h | ⟨j, h⟩⟩ := mem_hostOps.mp h <;> cases h)).mpr ⟨by omega, by rw [hbl]; exact hfits 0⟩
  have hω := omega_primitive hkk
  have hcols : (permCols x.configured.2.equality).length ≤ 10 ^ 28 := by
    obtain ⟨⟨lw, -⟩, hn⟩ := hbn.lawful
    refine (permCols_length _).trans ?_
    rw [Run.configured_eq lw]
    simp only [e0, List.nil_append, List.length_append, (chip_size hbn.1 lw _ _ _).2]
    exact (show 8 + 6 ≤ 10 ^ 28 by norm_num)
  have hwide : hostLookup.degree ≤ 6 ∧ hostLookup.pairs.length ≤ 6 + 1 :=
    ⟨hostLookup_degree, by simp [hostLookup, tableLookup]⟩
  obtain ⟨hsl, hlo⟩ := slack_with (d := 6) hbn hlegal (by rw [e0]; simp [csDegree]) (by rw [e0]; simp) (by rw [e0]) (by rw [e0])
    (ws := [hostLookup]) (by simpa using hwide) (by simp) hK
  have hKu : K.usable = 2 ^ kk - 6 ∧ K.ω = omega kk ∧ K.n = 2 ^ kk := by
    obtain ⟨-, -, A, -, rfl⟩ := keygen_ok hK
    exact ⟨by simp only [hbl], rfl, rfl⟩
  have hflag := host_flag hbn hlegal ea ef eq eh eb (Or.inl hL) hK
  refine ⟨L, hL, K, hK, hsl, hlo, fun v hv => ?_⟩
  suffices hcomp : (∀ i < m, hashWithDomainFr short' ![v i 1, v i 2] (v i 3) = .ok (v i 0)) →
      ∃ P : Prover Fr, P.Short (2 ^ kk) ∧ (∀ i < m, ∀ j : Fin 4, (P.advice (6 + j)).eval (omega kk ^ i) = v i j) ∧
        Base.Bn256.r ^ 5 ≤ Nat.card {c // P.Convinces K c} + K.loss * Base.Bn256.r ^ 4 by
    refine ⟨⟨?_, fun hv' => ?_⟩, hcomp⟩
    swap
    · obtain ⟨P, p1, p2, p3⟩ := hcomp hv'
      exact ⟨P, p1, p2, enough hkk hlo p3⟩
    -- soundness
    rintro ⟨P, hP, hPv, hlt⟩ i hi
    obtain ⟨-, -, hq1, hq2⟩ := host_quiet hbn hlegal ea ef eq eh eb (Or.inl hL)
    have hi' : i < K.usable := by omega
    have hrot : (K.grid P.advice).rot i 0 = i := (K.grid P.advice).rot_zero (show i < K.n by omega)
    have key := C92_mpt short' hbn hlegal (by rw [es, eS]) (by rw [eS]; exact hpos) (by rw [eS]; exact hS) (Or.inl hL)
      (cs := x.configured.2) (fun p h => List.mem_of_mem_drop h) (fun p h => List.mem_of_mem_drop h)
      (by
        intro o ho c r v hw
        rw [eb, List.nil_append] at ho
        obtain ⟨i, -, rfl | ⟨j, rfl⟩⟩ := mem_hostOps.mp ho
        · rcases hw with hw | ⟨r', -, hw⟩ <;> cases hw
          exact hq1
        · rcases hw with hw | ⟨r', -, hw⟩ <;> cases hw)
      (by
        intro c r ho
        rw [eb, List.nil_append] at ho
        obtain ⟨i, -, h | ⟨j, h⟩⟩ := mem_hostOps.mp ho <;> cases h)
      hK hω (delta_names hkk hcols) hP (lt_of_le_of_lt (Nat.mul_le_mul_right _ hsl) hlt)
      (q := .fixed 1 0) (es := ![.mul (.fixed 1 0) (.advice 6 0), .mul (.fixed 1 0) (.advice 7 0),
        .mul (.fixed 1 0) (.advice 8 0), .const 0, .mul (.fixed 1 0) (.advice 9 0), .fixed 1 0])
      (by
        rw [List.mem_singleton, hostLookup, eq]
        congr 1
        funext i
        exact eh i)
      hi' rfl (by
        change K.fixed 1 ((K.grid P.advice).rot i 0) = 1
        rw [hrot, hflag, if_pos hi])
      rfl (by
        change K.fixed 1 ((K.grid P.advice).rot i 0) = 1
        rw [hrot, hflag, if_pos hi])
    have hcell : ∀ j : Fin 4, (Expr.mul (.fixed 1 0) (.advice (6 + j) 0) : Expr Fr).eval (K.grid P.advice) i = v i j := by
      intro j
      change K.fixed 1 ((K.grid P.advice).rot i 0) * (P.advice (6 + j)).eval (K.ω ^ (K.grid P.advice).rot i 0) = _
      rw [hrot, hflag, if_pos hi, one_mul, hKu.2.1, hPv i hi]
    have c0 := hcell 0
    have c1 := hcell 1
    have c2 := hcell 2
    have c3 := hcell 3
    simp only [Matrix.cons_val_zero, Matrix.cons_val_one, Matrix.cons_val] at key
    rw [show (Expr.mul (.fixed 1 0) (.advice 6 0) : Expr Fr).eval (K.grid P.advice) i = _ from c0,
      show (Expr.mul (.fixed 1 0) (.advice 7 0) : Expr Fr).eval (K.grid P.advice) i = _ from c1,
      show (Expr.mul (.fixed 1 0) (.advice 8 0) : Expr Fr).eval (K.grid P.advice) i = _ from c2,
      show (Expr.mul (.fixed 1 0) (.advice 9 0) : Expr Fr).eval (K.grid P.advice) i = _ from c3] at key
    exact key.resolve_right (hv i hi)
  · -- completeness
    intro hv'
    set y := x.reload (hostTable m v) x.mode with hy
    have hylegal : y.Legal := ⟨hlegal.cols, hlegal.inj, hlegal.enable, hlegal.STEP_lt, hlegal.step_lt, hlegal.calcs_lt,
      by simp [hy, Run.reload, hostTable]⟩
    have hybn : y.IsBn k short := hbn
    have hctl : ∀ j, rowCtl (hostTable m v) j = 0 := by intro j; simp [rowCtl, hostTable]
    have hcom : Complete STEP STEP (hostTable m v) calcs := by
      refine ⟨fun j _ h => ?_, fun j hj => ⟨?_, hctl j⟩⟩
      · rw [hctl] at h
        omega
      · simp only [rowWords, hostTable, List.getD_eq_getElem?_getD, List.getElem?_map]
        rw [List.getElem?_eq_none (by simp; omega)]
        rfl
    obtain ⟨Ly, hLy, hacc⟩ := C31_complete hybn hylegal
      (fun _ => ⟨by simp [hy, Run.reload, hostTable, ec]; omega, by simp [hy, Run.reload, hostTable]⟩)
      (by
        change ChecksMatch x.legacy x.STEP (hostTable m v) x.calcs
        rw [el, eS, ec]
        exact hck _ rfl)
      (by
        change Complete x.STEP x.step (hostTable m v) x.calcs
        rw [eS, es, ec]
        exact hcom)
    have hKy : keygenWith x.configured.2 [hostLookup] (Ly.ops ++ hostOps m v) (2 ^ kk) (omega kk) delta = .ok K := by
      rw [← hK]
      exact (host_key hbn hlegal hf hL hylegal hLy _ _ _ _ _ _ _).symm
    obtain ⟨hn1, hn2, hq1, hq2⟩ := host_quiet hybn hylegal ea ef eq eh eb (Or.inl hLy)
    have hpa : ∀ c r w, Op.advice c r w ∈ hostOps m v → ∃ j : Fin 4, c = 6 + j ∧ r < m ∧ w = v r j := by
      intro c r w ho
      obtain ⟨i, hi, h | ⟨j, h⟩⟩ := mem_hostOps.mp ho <;> cases h
      exact ⟨j, rfl, hi, rfl⟩
    set adv : ℕ → Fr[X] := fun c => interp (2 ^ kk) (omega kk) (finalAdvice (Ly.ops ++ hostOps m v) c) with hadv
    have hcell : ∀ c, ∀ r < 2 ^ kk, (K.grid adv).advice c r = finalAdvice (Ly.ops ++ hostOps m v) c r := by
      intro c r hr
      change (adv c).eval (K.ω ^ r) = _
      rw [hKu.2.1]
      exact interp_eval hω _ hr
    have hreq : ∀ i < m, ∀ j : Fin 4, finalAdvice (Ly.ops ++ hostOps m v) (6 + j) i = v i j := by
      intro i hi j
      refine finalAdvice_eq (List.mem_append_right _ (mem_hostOps.mpr ⟨i, hi, Or.inr ⟨j, rfl⟩⟩)) fun w hw => ?_
      rcases List.mem_append.mp hw with hw | hw
      · exact absurd hw (hn2 _ _ _ (by omega) (by omega))
      · obtain ⟨j', e, -, rfl⟩ := hpa _ _ _ hw
        rw [show j = j' from Fin.ext (by omega)]
    have hlaid := laid_grid hybn hylegal (Or.inl hLy) (post := hostOps m v)
      (by
        intro o ho c r w hw
        rw [show y.before.ops = [] from eb, List.nil_append] at ho
        obtain ⟨i, -, rfl | ⟨j, rfl⟩⟩ := mem_hostOps.mp ho
        · rcases hw with hw | ⟨r', -, hw⟩ <;> cases hw
          exact hq1
        · rcases hw with hw | ⟨r', -, hw⟩ <;> cases hw)
      (by
        intro c r ho
        rw [show y.before.ops = [] from eb, List.nil_append] at ho
        obtain ⟨i, -, h | ⟨j, h⟩⟩ := mem_hostOps.mp ho <;> cases h)
      hKy adv
    have hgu : (K.grid adv).usable = 2 ^ kk - 6 := hKu.1
    have hgn : (K.grid adv).n = 2 ^ kk := hKu.2.2
    have hhon : y.Honest Ly (hostOps m v) (K.grid adv) := by
      refine ⟨hlaid, fun c r w ho => ?_, fun c _ r hr => hcell c r (by omega)⟩
      rw [show y.before.ops = [] from eb, List.nil_append] at ho
      obtain ⟨j, rfl, -⟩ := hpa _ _ _ ho
      exact hq2 _ (by omega) (by omega)
    have hA := hacc _ _ hhon
    obtain ⟨⟨lw, -⟩, hn⟩ := hybn.lawful
    obtain ⟨s, hen, -, hview, -⟩ := Run.honest_iff lw fr_big hylegal hn (Or.inl hLy) hhon
    have hen1 : s + calcs < (K.grid adv).usable := by
      have := hen.1
      rwa [show y.calcs = calcs from ec] at this
    have hcalc : y.calcs = calcs := ec
    have hen2 : ∀ r < (K.grid adv).n, (K.grid adv).fixed 0 r = if s < r ∧ r ≤ s + calcs then 1 else 0 := by
      have := hen.2
      rwa [show y.qEnable = 0 from eq, hcalc] at this
    have htab : ∀ i : Fin 6, y.hashTable i = i := eh
    have hrow : ∀ i < m, rowAt (hostTable m v) i = ⟨some (v i 1, v i 2), none, some (v i 3), none⟩ := by
      intro i hi
      simp [rowAt, hostTable, hi]
    have hlook : hostLookup.Holds (K.grid adv) := by
      refine (hostLookup_holds hA.laid.usable_le hflag).mpr fun row hr => ?_
      have ht0 : y.hashTable 0 = 0 := htab 0
      have ht1 : y.hashTable 1 = 1 := htab 1
      have ht2 : y.hashTable 2 = 2 := htab 2
      have ht3 : y.hashTable 3 = 3 := htab 3
      have ht4 : y.hashTable 4 = 4 := htab 4
      have ht5 : y.hashTable 5 = 5 := htab 5
      by_cases hi : row < m
      · simp only [if_pos hi]
        have hj : row < y.calcs := by omega
        have w0 := hview.w0 row hj
        have w1 := hview.w1 row hj
        have cc := hview.ctrl row hj
        have dd := hview.dom row hj
        have hh := hview.head row hj
        have hctl' : ∀ j, ctl (rowAt (hostTable m v)) j = 0 := fun j => (rowCtl_eq _ _).symm.trans (hctl j)
        have hnew : (seq y.legacy y.STEP specPerm (rowAt y.table) row).isNew = true := by
          rw [seq_isNew]
          right
          exact (hctl' (row - 1)).le.trans (Nat.zero_le _)
        rw [show rowAt y.table row = _ from hrow row hi] at w0 w1 dd
        rw [if_pos hnew] at hh
        rw [show ctl (rowAt y.table) row = 0 from hctl' row] at cc
        simp only [view, ht0, ht1, ht2, ht3, ht4, ht5, Option.getD_some, specFlag] at w0 w1 cc dd hh
        have en1 : (K.grid adv).fixed 0 (s + (row + 1)) = 1 := by
          rw [hen2 _ (by omega), if_pos (by omega)]
        have hdig : hashWithDomainFr short' ![v row 1, v row 2] (v row 3) =
            .ok ((K.grid adv).advice 0 (s + (row + 1))) := by
          refine ((C66_mpt k short short' legacy mode hpos hS _ _ _ _).mp ⟨y, Ly, hostOps m v, K.grid adv, hA, el,
            ?_, eS, es, ?_⟩).resolve_right (hv row hi)
          · rw [hy, hx]; rfl
          · simp only [List.mem_singleton, forall_eq]
            refine ⟨s + (row + 1), by omega, ?_, ?_⟩
            · rw [show y.qEnable = 0 from eq]
              exact en1
            · intro i
              simp only [Run.col, htab]
              fin_cases i
              · rfl
              · exact w0
              · exact w1
              · simpa using cc
              · exact dd
              · exact hh
        have hd : (K.grid adv).advice 0 (s + (row + 1)) = v row 0 := by
          have := hdig.symm.trans (hv' row hi)
          injection this
        refine ⟨s + (row + 1), by omega, en1, ?_, ?_, ?_, by simpa using cc, ?_, hh⟩
        · rw [hd, hcell 6 row (by omega)]
          exact (hreq row hi 0).symm
        · rw [w0, hcell 7 row (by omega)]
          exact (hreq row hi 1).symm
        · rw [w1, hcell 8 row (by omega)]
          exact (hreq row hi 2).symm
        · rw [dd, hcell 9 row (by omega)]
          exact (hreq row hi 3).symm
      · simp only [if_neg hi]
        refine ⟨s, by omega, ?_, ?_⟩
        · rw [hen2 _ (by omega), if_neg (by omega)]
        · have a0 := hview.idx0 (by omega)
          have a1 := hview.w00
          have a2 := hview.w10
          have a3 := hview.ctrl0
          have a4 := hview.dom0
          have a5 := hview.head0
          simp only [view, ht0, ht1, ht2, ht3, ht4, ht5] at a0 a1 a2 a3 a4 a5
          intro i hi
          interval_cases i
          exacts [a0, a1, a2, a3, a4, a5]
    have hgt : x.newGates = x.configured.2.gates := by rw [Run.newGates, e0]; rfl
    have hlk : x.newLookups = x.configured.2.lookups := by rw [Run.newLookups, e0]; rfl
    have hnew : y.newOps Ly = Ly.ops := by rw [Run.newOps, show y.before.ops = [] from eb]; rfl
    obtain ⟨P, p1, p2, p3⟩ := C89_complete hKy hω (advice := adv) (fun c => interp_degree hω _)
      ⟨fun p hp => hA.sat.gates p (show p ∈ x.newGates by rw [hgt]; exact hp),
        fun l hl' => hA.sat.lookups l (show l ∈ x.newLookups by rw [hlk]; exact hl')⟩
      (by simpa using hlook) (by
        intro a b ho
        rcases List.mem_append.mp ho with ho | ho
        · exact hA.sat.copies a b (by rw [hnew]; exact ho)
        · obtain ⟨i, -, h | ⟨j, h⟩⟩ := mem_hostOps.mp ho <;> cases h)
    refine ⟨P, p1, fun i hi j => ?_, ?_⟩
    · rw [p2, hadv, interp_eval hω _ (by omega)]
      exact hreq i hi j
    · rwa [show Fintype.card Fr = Base.Bn256.r from ZMod.card Base.Bn256.r] at p3

-- one request, hash(1, 2) in domain 0, on `2^8` rows: with the right digest there is a prover, with another one there is
-- none (C93 is an instance of C92, so the hypotheses of C92 hold together for the provers counted here)
example {k : ChipKind} {ch : Chip Fr 3} (hch : bnChip k = .ok ch) (short short' legacy : Bool) (mode : LoadMode)
    {x : Run Fr} (hx : x = hostRun ch short legacy mode 62 .empty 2) :
    ∃ D, hashWithDomainFr short' ![1, 2] 0 = .ok D ∧ ∃ L, x.load = .ok L ∧ ∃ K,
      keygenWith x.configured.2 [hostLookup] (L.ops ++ hostOps (q := 4) 1 0) (2 ^ 8) (omega 8) delta = .ok K ∧
      ∀ D', (∃ P : Prover Fr, P.Short (2 ^ 8) ∧
        (∀ j : Fin 4, (P.advice (6 + j)).eval (omega 8 ^ 0) = ![D', 1, 2, 0] j) ∧
        58 * 2 ^ 8 * Base.Bn256.r ^ 4 < Nat.card {c // P.Convinces K c}) ↔ D' = D := by
  obtain ⟨D, hD⟩ : ∃ D, hashWithDomainFr short' ![1, 2] 0 = .ok D :=
    ⟨_, (C04_C05_bn254 short' false).1 1 2 0⟩
  obtain ⟨L, hL, K, hK, -, -, h⟩ := C93_host hch short short' legacy mode (STEP := 62) (calcs := 2) (m := 1) (kk := 8)
    (by norm_num) (by norm_num) (by norm_num) (by norm_num) (by norm_num) (by cases k <;> simp [ChipKind.rows]) hx
  refine ⟨D, hD, L, hL, K, hK, fun D' => ?_⟩
  have := (h (fun _ => ![D', 1, 2, 0]) (by simp)).1
  simp only [Nat.lt_one_iff, forall_eq, Matrix.cons_val_zero, Matrix.cons_val_one, Matrix.cons_val] at this
  rw [this, hD]
  exact ⟨fun h => by injection h with h; exact h.symm, fun h => by rw [h]⟩

end Props
