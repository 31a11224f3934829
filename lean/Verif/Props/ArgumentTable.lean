import Verif.Props.ArgumentComplete
import Verif.Props.Blinding
import Verif.Props.TableSound
import Verif.Props.TableMany
import Verif.Props.Degree
import Verif.Props.TablePlan
import Verif.Circuit.TableCells

/-!
# Proofs about the hash table
-/

set_option linter.unusedVariables false
set_option linter.unusedSectionVars false

namespace Props
open Halo2 Circuit Circuit.Table Base.Bn256 Polynomial

/-! ### The domain of bn256 -/

/-- `ROOT_OF_UNITY` of `bn256::Fr`, the generator 7 to the odd part of `r - 1`. -/
def rootOfUnity : Fr := 7 ^ ((r - 1) / 2 ^ 28)

/-- `EvaluationDomain::new`: the root of unity, squared until its order is `2^k`. -/
def omega (k : ℕ) : Fr := rootOfUnity ^ 2 ^ (28 - k)

/-- `DELTA` of `bn256::Fr`. -/
def delta : Fr := 7 ^ 2 ^ 28

example : rootOfUnity = 0x03ddb9f5166d18b798865ea93dd31f743215cf6dd39329c8d34f1ed960c37c9c := by
  have := Pratt.powMod_eq 7 ((r - 1) / 2 ^ 28) r (by decide +kernel)
  have h : Pratt.powMod 7 ((r - 1) / 2 ^ 28) r =
    0x03ddb9f5166d18b798865ea93dd31f743215cf6dd39329c8d34f1ed960c37c9c := by decide +kernel
  rw [h] at this
  exact (this.trans (congrArg (· ^ ((r - 1) / 2 ^ 28)) (Nat.cast_ofNat (R := ZMod r) (n := 7)))).symm.trans
    (Nat.cast_ofNat (R := ZMod r))

theorem seven_pow_ne {e : ℕ} (he : e < 2 ^ 300) (h : Pratt.powMod 7 e r % r ≠ 1 % r) : (7 : Fr) ^ e ≠ 1 := by
  intro h1
  have := Pratt.powMod_eq 7 e r he
  have h2 : ((Pratt.powMod 7 e r : ℕ) : Fr) = ((1 : ℕ) : Fr) := by
    rw [Nat.cast_one]
    exact this.trans (by exact_mod_cast h1)
  exact h ((ZMod.natCast_eq_natCast_iff' _ _ _).mp h2)

theorem seven_pow_card : (7 : Fr) ^ (r - 1) = 1 := by
  have h7 : (7 : Fr) ≠ 0 := by
    have : ((7 : ℕ) : ZMod r) ≠ 0 := by
      rw [Ne, ZMod.natCast_eq_zero_iff]
      decide +kernel
    exact_mod_cast this
  exact ZMod.pow_card_sub_one_eq_one h7

/-- The domain of `2^k` rows has `2^k` points. -/
theorem omega_primitive {k : ℕ} (hk : k ≤ 28) : IsPrimitiveRoot (omega k) (2 ^ k) := by
  have ho : orderOf rootOfUnity = 2 ^ (27 + 1) := by
    apply orderOf_eq_prime_pow
    · rw [rootOfUnity, ← pow_mul]
      exact seven_pow_ne (by decide +kernel) (by decide +kernel)
    · rw [rootOfUnity, ← pow_mul, show (r - 1) / 2 ^ 28 * 2 ^ (27 + 1) = r - 1 by decide +kernel]
      exact seven_pow_card
  have h := IsPrimitiveRoot.orderOf rootOfUnity
  rw [ho] at h
  exact h.pow (by positivity) (by rw [← pow_add]; congr 1; omega)

/-- The cells of up to `10^28` columns have different names. -/
theorem delta_names {cs : CS Fr} {k : ℕ} (hk : k ≤ 28) (hc : (permCols cs.equality).length ≤ 10 ^ 28) :
    DistinctNames cs (2 ^ k) (omega k) delta := by
  have key : ∀ i j, i < 10 ^ 28 → j < 10 ^ 28 → ∀ s u, delta ^ i * omega k ^ s = delta ^ j * omega k ^ u → i = j := by
    have hp : ∀ d : ℕ, (7 : Fr) ^ (2 ^ 28 * 2 ^ 28 * d) = 1 → 13818364434197438864469338081 ∣ d := by
      intro d hd
      have h1 : orderOf (7 : Fr) ∣ 2 ^ 28 * 2 ^ 28 * d := orderOf_dvd_of_pow_eq_one hd
      have h2 : orderOf (7 : Fr) ∣ r - 1 := orderOf_dvd_of_pow_eq_one seven_pow_card
      have h3 : 13818364434197438864469338081 ∣ orderOf (7 : Fr) := by
        by_contra h
        have hcop : Nat.Coprime (orderOf (7 : Fr)) 13818364434197438864469338081 :=
          ((Nat.Prime.coprime_iff_not_dvd prime_13818364434197438864469338081).mpr h).symm
        have e : r - 1 = 13818364434197438864469338081 * ((r - 1) / 13818364434197438864469338081) := by decide +kernel
        rw [e] at h2
        have := orderOf_dvd_iff_pow_eq_one.mp (hcop.dvd_of_dvd_mul_left h2)
        exact seven_pow_ne (by decide +kernel) (by decide +kernel) this
      have h4 := h3.trans h1
      exact (Nat.Coprime.dvd_mul_left (by decide +kernel)).mp h4
    have hpow : ∀ (x : Fr) (e d : ℕ), ((x ^ e) ^ d) ^ e = x ^ (e * e * d) := fun x e d => by ring
    have h7 : (7 : Fr) ≠ 0 := by
      intro h
      have := seven_pow_card
      rw [h, zero_pow (by decide +kernel)] at this
      exact zero_ne_one this
    have wlog : ∀ i j, i ≤ j → j < 10 ^ 28 → ∀ s u, delta ^ i * omega k ^ s = delta ^ j * omega k ^ u → i = j := by
      intro i j hij hj s u h
      have h28 : omega k ^ 2 ^ 28 = 1 := by
        have := (omega_primitive hk).pow_eq_one
        rw [show 2 ^ 28 = 2 ^ k * 2 ^ (28 - k) by rw [← pow_add]; congr 1; omega, pow_mul, this, one_pow]
      have h := congrArg (· ^ 2 ^ 28) h
      simp only [mul_pow] at h
      rw [← pow_mul _ s, mul_comm s, pow_mul _ (2 ^ 28) s, h28, ← pow_mul _ u, mul_comm u, pow_mul _ (2 ^ 28) u, h28,
        one_pow, one_pow, mul_one, mul_one] at h
      obtain ⟨d, rfl⟩ := Nat.exists_eq_add_of_le hij
      rw [pow_add, mul_pow] at h
      have hne : (delta ^ i) ^ 2 ^ 28 ≠ 0 := pow_ne_zero _ (pow_ne_zero _ (pow_ne_zero _ h7))
      have h1 : (delta ^ d) ^ 2 ^ 28 = 1 := mul_left_cancel₀ hne (by rw [mul_one]; exact h.symm)
      have h3 := hp d ((hpow 7 (2 ^ 28) d).symm.trans h1)
      have : d = 0 := Nat.eq_zero_of_dvd_of_lt h3 (by omega)
      omega
    intro i j hi hj s u h
    rcases le_total i j with hij | hij
    · exact wlog i j hij hj s u h
    · exact (wlog j i hij hi u s h.symm).symm
  intro i j hi hj s u hs hu h
  have e := key i j (by omega) (by omega) s u h
  subst e
  refine ⟨rfl, ?_⟩
  have h7 : (delta : Fr) ^ i ≠ 0 := by
    refine pow_ne_zero _ (pow_ne_zero _ fun h => ?_)
    have := seven_pow_card
    rw [h, zero_pow (by decide +kernel)] at this
    exact zero_ne_one this
  exact (omega_primitive hk).pow_inj hs hu (mul_left_cancel₀ h7 h)

/-! ### Keys -/

theorem keyFixed_eq {F : Type} [Field F] {ops : List (Op F)} {u c r : ℕ} (h : ∀ r' v, Op.fill c r' v ∈ ops → r < u) :
    keyFixed ops u c r = finalFixed ops c r := by
  unfold keyFixed finalFixed
  generalize (0 : F) = z
  induction ops generalizing z with
  | nil => rfl
  | cons o os ih =>
    rw [List.foldl_cons, List.foldl_cons, ih fun r' v hm => h r' v (by simp [hm])]
    congr 1
    cases o with
    | fill c' r' v =>
      by_cases hc : c' = c
      · subst hc
        have := h r' v (by simp)
        simp [this]
      · simp [hc]
    | _ => rfl

theorem mem_permCols {eqs : List Col} {c : Col} : c ∈ permCols eqs ↔ c ∈ eqs := by
  have key : ∀ (eqs l : List Col), c ∈ eqs.foldl (fun l c => if c ∈ l then l else l ++ [c]) l ↔ c ∈ l ∨ c ∈ eqs := by
    intro eqs
    induction eqs with
    | nil => intro l; simp
    | cons d eqs ih =>
      intro l
      rw [List.foldl_cons, ih]
      split_ifs with h
      · constructor
        · rintro (h | h) <;> simp [h]
        · rintro (h' | h')
          · exact Or.inl h'
          · rcases List.mem_cons.mp h' with rfl | h'
            · exact Or.inl h
            · exact Or.inr h'
      · simp only [List.mem_append, List.mem_cons, List.not_mem_nil, or_false, or_assoc]
  have := key eqs []
  simpa [permCols] using this

theorem permCols_length (eqs : List Col) : (permCols eqs).length ≤ eqs.length := by
  have key : ∀ (eqs l : List Col), (eqs.foldl (fun l c => if c ∈ l then l else l ++ [c]) l).length ≤ l.length + eqs.length := by
    intro eqs
    induction eqs with
    | nil => intro l; simp
    | cons d eqs ih =>
      intro l
      rw [List.foldl_cons]
      refine (ih _).trans ?_
      split_ifs
      · simp
      · simp only [List.length_append, List.length_cons, List.length_nil]; omega
  simpa [permCols] using key eqs []

/-- The copy constraints of `load` join cells of assigned rows. -/
theorem copies_rows {x : Run Fr} {k : ChipKind} {short : Bool} (hbn : x.IsBn k short) (hx : x.Legal)
    {L' : Layouter Fr} (hL : x.Loads L') {u : ℕ} (hf : Fits (x.newOps L') u) {a b : Cell}
    (hm : Op.copy a b ∈ x.newOps L') : a.row < u ∧ b.row < u := by
  obtain ⟨-, hn⟩ := hbn.lawful
  obtain ⟨lw, ex, -⟩ := hbn.exact
  obtain ⟨s, s', ⟨-, ho⟩, -⟩ := hL.placed lw hx hn
  rw [Run.newOps_eq lw ho] at hf hm
  have hsel : s + x.calcs < u := by
    have hm : Op.selector x.cs.numSelectors (s + x.calcs) ∈ Run.ops lw s s' := by
      rw [← finalSelector_iff]
      exact (load_selector _ _ _ _ _ _ _ _ _ _ _ _ _ s s' _).mpr (Or.inr rfl)
    have := hf _ hm
    simp only [Op.bottom] at this
    omega
  have hlen : (inWords x.legacy x.STEP specPerm lw x.cs.numAdvice x.cs.numFixed x.cs.numSelectors x.qEnable
      x.hashTable x.step (rowAt x.table) x.calcs s).length = x.calcs := length_inWords ..
  have hlen' : (outWords x.legacy x.STEP specPerm lw x.cs.numAdvice x.cs.numFixed x.cs.numSelectors x.qEnable
      x.hashTable x.step (rowAt x.table) x.calcs s).length = x.calcs := length_outWords ..
  have hbound : ∀ i < x.calcs, ∀ c r, ex.Bound (x.cs.numAdvice + 8) (s' i) c r → r < u := by
    intro i hi c r hb
    obtain ⟨v, hv⟩ := (ex.written (x.cs.numAdvice + 8) (x.cs.numFixed + 1) (x.cs.numSelectors + 1)
      (inWords x.legacy x.STEP specPerm lw x.cs.numAdvice x.cs.numFixed x.cs.numSelectors x.qEnable
      x.hashTable x.step (rowAt x.table) x.calcs s) s' c r).mpr ⟨i, by rw [hlen]; exact hi, Or.inl hb⟩
    have := hf _ ((mem_loadOps x.legacy x.STEP specPerm lw x.cs.numAdvice x.cs.numFixed x.cs.numSelectors x.qEnable
      x.hashTable x.step (rowAt x.table) x.calcs _ s s' _).mpr (Or.inr (Or.inr (Or.inr (Or.inl hv)))))
    simp only [Op.bottom] at this
    omega
  rcases (mem_loadOps x.legacy x.STEP specPerm lw x.cs.numAdvice x.cs.numFixed x.cs.numSelectors x.qEnable
    x.hashTable x.step (rowAt x.table) x.calcs _ s s' _).mp hm with hm | hm | hm | hm | hm
  · rw [mem_rangeOps] at hm
    rcases hm with ⟨i, -, h⟩ | h <;> cases h
  · obtain ⟨c, h, -⟩ := tableOps_cols _ _ _ _ hm
    cases h
  · have := mem_tailOps x.cs.numSelectors x.calcs s x.mode _ hm
    cases this
  · obtain ⟨i, hi, k, rfl, rfl⟩ := (ex.copies _ _ _ _ _ _ _).mp hm
    refine ⟨hbound i (by rw [← hlen]; exact hi) _ _ (ex.start _ _ k), ?_⟩
    rw [inWords_cell]
    have : i < x.calcs := by rw [← hlen]; exact hi
    simp only
    omega
  · obtain ⟨q, hq, k, h⟩ := (mem_finalOps _ _ _).mp hm
    cases h
    obtain ⟨j, hj, rfl⟩ := List.mem_iff_getElem.mp hq
    rw [List.length_zip, lt_min_iff] at hj
    have hjc : j < x.calcs := by rw [← hlen']; exact hj.1
    rw [List.getElem_zip]
    constructor
    · simp only
      rw [outWords_cell]
      simp only
      omega
    · obtain ⟨c, r, e, hb⟩ := ex.outs_bound _ _ _ _ _ j hj.2 k
      simp only
      rw [e]
      exact hbound j hjc c r hb

/-- **C87.** Keys of a circuit with the hash table in it: if the circuit enables equality on the columns of the hash
table and the rest of the circuit only copies assignable cells of columns with equality, key generation succeeds
exactly if there are rows enough. -/
theorem C87_keygen {x : Run Fr} {k : ChipKind} {short : Bool} (hbn : x.IsBn k short) (hx : x.Legal)
    {L' : Layouter Fr} (hL : x.Loads L') {post : List (Op Fr)} {cs : CS Fr} {ws : List (Wide Fr)}
    (heq : ∀ c ∈ x.configured.2.equality, c ∈ cs.equality) {n : ℕ} (ω δ : Fr)
    (hrest : ∀ a b, Op.copy a b ∈ x.before.ops ++ post →
      (a.col ∈ cs.equality ∧ a.row < n - (cs.blindingWith ws + 1)) ∧
        b.col ∈ cs.equality ∧ b.row < n - (cs.blindingWith ws + 1)) :
    (∃ K, keygenWith cs ws (L'.ops ++ post) n ω δ = .ok K) ↔
      cs.blindingWith ws + 3 ≤ n ∧ Fits (L'.ops ++ post) (n - (cs.blindingWith ws + 1)) := by
  constructor
  · rintro ⟨K, hK⟩
    obtain ⟨h1, h2, -⟩ := keygen_ok hK
    exact ⟨h1, h2⟩
  rintro ⟨h1, h2⟩
  obtain ⟨⟨lw, -⟩, hn⟩ := hbn.lawful
  obtain ⟨s, s', ⟨-, ho⟩, -⟩ := hL.placed lw hx hn
  have hops : L'.ops = x.before.ops ++ x.newOps L' := by rw [Run.newOps_eq lw ho, ho]
  have hix : ∀ c : Cell, c.col ∈ cs.equality → c.row < n - (cs.blindingWith ws + 1) →
      ∃ y, cellIndex (permCols cs.equality) n (n - (cs.blindingWith ws + 1)) c = .ok y :=
    fun c hc hr => cellIndex_exists (mem_permCols.mpr hc) (Nat.sub_le _ _) hr
  obtain ⟨A, hA⟩ := assemble_ok (cols := permCols cs.equality) (n := n) (usable := n - (cs.blindingWith ws + 1))
    (ops := L'.ops ++ post) (Assembly.new _) (by
      intro a b hm
      by_cases hmem : Op.copy a b ∈ x.before.ops ++ post
      · obtain ⟨⟨ha, ha'⟩, hb, hb'⟩ := hrest a b hmem
        exact ⟨hix a ha ha', hix b hb hb'⟩
      · have hm' : Op.copy a b ∈ x.newOps L' := by
          rw [hops] at hm
          simp only [List.mem_append] at hm hmem
          tauto
        obtain ⟨ha, hb⟩ := C43_load hbn hx hL a b hm'
        obtain ⟨ha', hb'⟩ := copies_rows hbn hx hL (u := n - (cs.blindingWith ws + 1)) (fun o ho => h2 o (by
          rw [hops]
          simp only [List.mem_append]
          exact Or.inl (Or.inr ho))) hm'
        exact ⟨hix a (heq _ ha) ha', hix b (heq _ hb) hb'⟩)
  refine ⟨⟨cs, ws, n, n - (cs.blindingWith ws + 1), ω, δ, keyFixed (L'.ops ++ post) (n - (cs.blindingWith ws + 1)),
    finalSelector (L'.ops ++ post), A.mapping⟩, ?_⟩
  unfold keygenWith
  simp only
  rw [if_neg (by push Not; exact ⟨h1, h2⟩), hA]
  rfl

theorem ops_split {x : Run Fr} {k : ChipKind} {short : Bool} (hbn : x.IsBn k short) (hx : x.Legal)
    {L' : Layouter Fr} (hL : x.Loads L') (post : List (Op Fr)) :
    L'.ops = x.before.ops ++ x.newOps L' ∧ ∀ o ∈ x.newOps L', o ∈ L'.ops ++ post := by
  obtain ⟨⟨lw, -⟩, hn⟩ := hbn.lawful
  obtain ⟨s, s', ⟨-, ho⟩, -⟩ := hL.placed lw hx hn
  have hops : L'.ops = x.before.ops ++ x.newOps L' := by rw [Run.newOps_eq lw ho, ho]
  refine ⟨hops, fun o h => ?_⟩
  rw [hops]
  simp only [List.mem_append]
  exact Or.inl (Or.inr h)

/-- The assignments a prover can commit to carry the fixed columns and selectors of the key. -/
theorem laid_grid {x : Run Fr} {k : ChipKind} {short : Bool} (hbn : x.IsBn k short) (hx : x.Legal)
    {L' : Layouter Fr} (hL : x.Loads L') {post : List (Op Fr)} {cs : CS Fr} {ws : List (Wide Fr)}
    (quietFixed : ∀ o ∈ x.before.ops ++ post, ∀ c r v, o.FixedWrite c r v → ¬ x.FixedCol c)
    (quietSel : ∀ c r, Op.selector c r ∈ x.before.ops ++ post → ¬ x.Sel c) {n : ℕ} {ω δ : Fr} {K : Key Fr}
    (hK : keygenWith cs ws (L'.ops ++ post) n ω δ = .ok K) (advice : ℕ → Fr[X]) : x.Laid L' post (K.grid advice) := by
  obtain ⟨hops, hin⟩ := ops_split hbn hx hL post
  obtain ⟨hmin, hfits, A, -, rfl⟩ := keygen_ok hK
  refine ⟨Nat.sub_le _ _, fun o ho => hfits o (hin o ho), quietFixed, quietSel, ?_, ?_⟩
  · intro c hc r hr hu
    refine keyFixed_eq fun r' v hm => ?_
    refine hu ?_
    rw [hops] at hm
    rcases List.mem_append.mp hm with hm | hm
    · rcases List.mem_append.mp hm with hm | hm
      · exact absurd hc (quietFixed _ (List.mem_append_left _ hm) c r' v (Or.inr ⟨r', le_rfl, rfl⟩))
      · exact newOps_fill hbn hx hL hm
    · exact absurd hc (quietFixed _ (List.mem_append_right _ hm) c r' v (Or.inr ⟨r', le_rfl, rfl⟩))
  · intro c hc r hr
    rfl

/-- An assignment that satisfies the circuit is accepted by the hash table. -/
theorem accepted_of_holds {x : Run Fr} {k : ChipKind} {short : Bool} (hbn : x.IsBn k short) (hx : x.Legal)
    {L' : Layouter Fr} (hL : x.Loads L') {post : List (Op Fr)} {cs : CS Fr} {ws : List (Wide Fr)}
    (hgates : ∀ p ∈ x.newGates, p ∈ cs.gates) (hlookups : ∀ l ∈ x.newLookups, l ∈ cs.lookups)
    (quietFixed : ∀ o ∈ x.before.ops ++ post, ∀ c r v, o.FixedWrite c r v → ¬ x.FixedCol c)
    (quietSel : ∀ c r, Op.selector c r ∈ x.before.ops ++ post → ¬ x.Sel c) {n : ℕ} {ω δ : Fr} {K : Key Fr}
    (hK : keygenWith cs ws (L'.ops ++ post) n ω δ = .ok K) {adv : ℕ → Fr[X]} (hcs : cs.Holds (K.grid adv))
    (hcop : CopiesHold (K.grid adv) (L'.ops ++ post)) : x.Accepted k short L' post (K.grid adv) := by
  obtain ⟨hops, hin⟩ := ops_split hbn hx hL post
  refine ⟨hbn, hx, hL, laid_grid hbn hx hL quietFixed quietSel hK _, ⟨?_, ?_, ?_⟩⟩
  · exact fun p hp => hcs.1 p (hgates p hp)
  · exact fun l hl => hcs.2 l (hlookups l hl)
  · exact fun a b hm => hcop a b (hin _ hm)

/-- **C87.** Soundness of the hash table against a prover with polynomials: in any circuit with a key, whoever commits to
advice columns that the hash table does not accept convinces the verifier for at most `K.slack` in `r` of all
challenges. -/
theorem C87_sound {x : Run Fr} {k : ChipKind} {short : Bool} (hbn : x.IsBn k short) (hx : x.Legal)
    {L' : Layouter Fr} (hL : x.Loads L') {post : List (Op Fr)} {cs : CS Fr} {ws : List (Wide Fr)}
    (hgates : ∀ p ∈ x.newGates, p ∈ cs.gates) (hlookups : ∀ l ∈ x.newLookups, l ∈ cs.lookups)
    (quietFixed : ∀ o ∈ x.before.ops ++ post, ∀ c r v, o.FixedWrite c r v → ¬ x.FixedCol c)
    (quietSel : ∀ c r, Op.selector c r ∈ x.before.ops ++ post → ¬ x.Sel c) {n : ℕ} {ω δ : Fr} {K : Key Fr}
    (hK : keygenWith cs ws (L'.ops ++ post) n ω δ = .ok K) (hω : IsPrimitiveRoot ω n) (hδ : DistinctNames cs n ω δ)
    {P : Prover Fr} (hP : P.Short n) :
    x.Accepted k short L' post (K.grid P.advice) ∨
      Nat.card {c // P.Convinces K c} ≤ K.slack * Base.Bn256.r ^ 4 := by
  rcases C86_sound hK hω hδ hP with ⟨hcs, -, hcop⟩ | h
  · exact Or.inl (accepted_of_holds hbn hx hL hgates hlookups quietFixed quietSel hK hcs hcop)
  · exact Or.inr (h.trans_eq (congrArg (fun q => K.slack * q ^ 4) (ZMod.card Base.Bn256.r)))

/-! ### The test circuits -/

theorem degree_eq {F : Type} (cs : CS F) : cs.degree = max 3 (csDegree cs) := by
  have h : ∀ l : List (Gate F), (l.flatMap fun p => p.polys.map Expr.degree).foldr max 0 =
      (l.map gateDegree).foldr max 0 := by
    intro l
    induction l with
    | nil => rfl
    | cons p l ih => rw [List.flatMap_cons, foldr_max_append, ih]; rfl
  unfold CS.degree csDegree
  rw [h, max_comm ((cs.gates.map gateDegree).foldr max 0)]
  rfl

theorem septExprs_length {F : Type} (m : Base.Mds F 3) (ck : Septidon.SBox) (st : Fin 3 → Expr F)
    (l : List Septidon.SBox) : (Septidon.septupleLoop m ck st l).1.length = l.length := by
  induction l generalizing ck st with
  | nil => rfl
  | cons s l ih => simp [Septidon.septupleLoop, ih]

theorem septidon_size {F : Type} [Field F] (m : Base.Mds F 3) (rc : ℕ → Fin 3 → F) (a f σ : ℕ) :
    (((Septidon.chip m rc).configure ⟨a, f, σ, [], [], []⟩).2.gates.flatMap fun p => p.polys).length = 18 ∧
      ((Septidon.chip m rc).configure ⟨a, f, σ, [], [], []⟩).2.equality.length = 6 := by
  have h : (Septidon.chip m rc).configure ⟨a, f, σ, [], [], []⟩ = _ :=
    Septidon.configure_eq m rc ⟨a, f, σ, [], [], []⟩
  obtain ⟨c, hc⟩ : ∃ c, c = (Septidon.chip m rc).configure ⟨a, f, σ, [], [], []⟩ := ⟨_, rfl⟩
  rw [← hc] at h ⊢
  subst h
  have h6 : (Septidon.config a f).septuple.following.length = 6 := rfl
  constructor
  · simp [Septidon.gates, Septidon.gateQuery, Septidon.gateSept, Septidon.gateTransition, Septidon.gateFull,
      Septidon.gatePartial, withSelector, Septidon.septExprs, septExprs_length, h6]
  · simp

theorem pow5_size {F : Type} [Field F] (S : Pow5.Params F 2) (a f σ : ℕ) :
    (((Pow5.chip S).configure ⟨a, f, σ, [], [], []⟩).2.gates.flatMap fun p => p.polys).length = 13 ∧
      ((Pow5.chip S).configure ⟨a, f, σ, [], [], []⟩).2.equality.length = 6 := by
  obtain ⟨cols, h⟩ : ∃ cols : Pow5.Cols 2, (Pow5.chip S).configure ⟨a, f, σ, [], [], []⟩ =
      Pow5.configure S cols ⟨a + 1 + 1 + 1 + 1, f + 1 + 1 + 1 + 1 + 1 + 1, σ, [], [], []⟩ :=
    ⟨⟨![a, a + 1, a + 1 + 1], a + 1 + 1 + 1, ![f, f + 1, f + 1 + 1],
      ![f + 1 + 1 + 1, f + 1 + 1 + 1 + 1, f + 1 + 1 + 1 + 1 + 1]⟩,
      by simp only [Pow5.chip, Pow5.configureChip, CS.adviceColumn, CS.fixedColumn, bind, StateT.bind]⟩
  have h' : Pow5.configure S cols ⟨a + 1 + 1 + 1 + 1, f + 1 + 1 + 1 + 1 + 1 + 1, σ, [], [], []⟩ = _ :=
    Pow5.configure_eq S cols _
  obtain ⟨c, hc⟩ : ∃ c, c = (Pow5.chip S).configure ⟨a, f, σ, [], [], []⟩ := ⟨_, rfl⟩
  rw [← hc] at h ⊢
  rw [h'] at h
  subst h
  constructor
  · simp [Pow5.gates, Pow5.fullGate, Pow5.partialGate, Pow5.singleGate, Pow5.padGate]
  · simp [Pow5.eqCols]

/-- Polynomials and equality-enabled columns of the chips. -/
theorem chip_size {k : ChipKind} {ch : Chip Fr 3} (hch : bnChip k = .ok ch) (lw : ch.Lawful specPerm) (a f σ : ℕ) :
    ((lw.gates a f σ).flatMap fun p => p.polys).length ≤ 18 ∧ (lw.eqs a f σ).length = 6 := by
  have hcf := lw.configure_eq ⟨a, f, σ, [], [], []⟩
  have h1 : (ch.configure ⟨a, f, σ, [], [], []⟩).2.gates = lw.gates a f σ := by rw [hcf]; rfl
  have h2 : (ch.configure ⟨a, f, σ, [], [], []⟩).2.equality = lw.eqs a f σ := by rw [hcf]; rfl
  rw [← h1, ← h2]
  clear h1 h2 hcf lw
  cases k with
  | pow5 b =>
    have : ∃ S : Pow5.Params Fr 2, ch = Pow5.chip S := by
      cases b <;> simp only [bnChip] at hch <;> split at hch <;> cases hch <;> exact ⟨_, rfl⟩
    obtain ⟨S, rfl⟩ := this
    exact ⟨(pow5_size S a f σ).1.trans_le (by norm_num), (pow5_size S a f σ).2⟩
  | septidon =>
    have : ∃ rc, ch = Septidon.chip mds rc := by
      simp only [bnChip] at hch
      split at hch <;> cases hch
      exact ⟨_, rfl⟩
    obtain ⟨rc, rfl⟩ := this
    exact ⟨(septidon_size mds rc a f σ).1.le, (septidon_size mds rc a f σ).2⟩

/-- Challenges, of `r`, that can save a bad table of a circuit that consists of the hash table, a few gates and up to 40
lookups of up to `d + 1` columns. -/
theorem slack_with {x : Run Fr} {k : ChipKind} {short : Bool} (hbn : x.IsBn k short) (hx : x.Legal)
    (h0 : csDegree x.cs ≤ 6) (h0' : (x.cs.gates.flatMap fun p => p.polys).length ≤ 8) (h1 : x.cs.lookups = [])
    (h2 : x.cs.equality = []) {ops : List (Op Fr)} {kk : ℕ} {ω δ : Fr} {K : Key Fr} {ws : List (Wide Fr)} {d : ℕ} (hws : ∀ w ∈ ws, w.degree ≤ 6 ∧ w.pairs.length ≤ d + 1)
    (h40 : ws.length ≤ 40) (hK : keygenWith x.configured.2 ws ops (2 ^ kk) ω δ = .ok K) :
    K.slack ≤ (52 + d) * 2 ^ kk ∧ K.loss ≤ (17 + 2 * ws.length) * 2 ^ kk := by
  obtain ⟨⟨lw, -⟩, hn⟩ := hbn.lawful
  obtain ⟨s1, s2⟩ := chip_size hbn.1 lw (x.cs.numAdvice + 8) (x.cs.numFixed + 1) (x.cs.numSelectors + 1)
  obtain ⟨hmin, hfits, A, -, rfl⟩ := keygen_ok hK
  have hbl : 5 ≤ x.configured.2.blindingWith ws := by
    unfold CS.blindingWith
    omega
  have hd : x.configured.2.degree = 6 := by
    obtain ⟨ch, hch, h⟩ := C53_circuit_degree k
    have e : ch = x.ch := by
      have := hch.symm.trans hbn.1
      injection this
    have h5 := (h x.legacy x.qEnable x.hashTable x.step x.cs).1
    rw [e] at h5
    rw [max_eq_right h0] at h5
    simp only [StateT.run] at h5
    rw [degree_eq]
    unfold Run.configured
    rw [h5]
    rfl
  have heq : x.configured.2.equality.length = 14 := by
    rw [Run.configured_eq lw]
    simp only [h2, List.nil_append, List.length_append, s2]
    rfl
  have hc : (permCols x.configured.2.equality).length ≤ 14 := (permCols_length _).trans_eq heq
  have hp : (x.configured.2.gates.flatMap fun p => p.polys).length ≤ 48 := by
    rw [Run.configured_eq lw]
    simp only [List.flatMap_append, List.length_append]
    have : ((tableGates (F := Fr) x.legacy x.cs.numAdvice x.cs.numFixed x.cs.numSelectors x.qEnable x.hashTable
        x.step).flatMap fun p => p.polys).length ≤ 22 := by
      simp [tableGates, customRowGate, controlConstrainGate, controlStepGate, hashIndexGate, inputConstrainGate]
    omega
  have hl : x.configured.2.lookups.length = 1 := by
    rw [Run.configured_eq lw]
    simp [h1]
  have hll : (x.configured.2.lookups.map Lookup.wide ++ ws).length = 1 + ws.length := by
    rw [List.length_append, List.length_map, hl]
  have hle : ∀ (l : List ℕ) (e : ℕ), (∀ a ∈ l, a ≤ e) → l.foldr max 0 ≤ e := by
    intro l e h
    induction l with
    | nil => simp
    | cons a l ih => exact max_le (h a (by simp)) (ih fun b hb => h b (by simp [hb]))
  have hw : ((x.configured.2.lookups.map Lookup.wide ++ ws).map fun w : Wide Fr => w.pairs.length - 1).foldr max 0 ≤ d := by
    refine hle _ _ fun a ha => ?_
    obtain ⟨w, hw, rfl⟩ := List.mem_map.mp ha
    rcases List.mem_append.mp hw with hw | hw
    · obtain ⟨l, -, rfl⟩ := List.mem_map.mp hw
      simp [Lookup.wide]
    · have := (hws w hw).2
      omega
  have hdw : x.configured.2.degreeWith ws = 6 := by
    have : (ws.map Wide.degree).foldr max 0 ≤ 6 := hle _ _ fun a ha => by
      obtain ⟨w, hw, rfl⟩ := List.mem_map.mp ha
      exact (hws w hw).1
    rw [CS.degreeWith, hd]
    omega
  unfold Key.loss Key.slack Key.rest Key.width Key.numTerms Key.chunks Key.chunkLen Key.degree Key.lookups Key.cols
  simp only [hll, hdw]
  generalize ((x.configured.2.lookups.map Lookup.wide ++ ws).map fun w : Wide Fr => w.pairs.length - 1).foldr max 0 = W at *
  generalize 2 ^ kk = n at *
  generalize x.configured.2.blindingWith ws = b at *
  obtain ⟨u, rfl⟩ : ∃ u, n = u + (b + 1) := ⟨n - (b + 1), by omega⟩
  rw [Nat.add_sub_cancel]
  have h14 : (permCols x.configured.2.equality).length * u ≤ 14 * u := Nat.mul_le_mul_right _ hc
  generalize (permCols x.configured.2.equality).length * u = w at *
  have : ((permCols x.configured.2.equality).length + (6 - 2) - 1) / (6 - 2) ≤ 4 := by omega
  have huW : u * W ≤ u * d := Nat.mul_le_mul_left _ hw
  have e1 : (52 + d) * (u + (b + 1)) = 52 * (u + (b + 1)) + u * d + d * (b + 1) := by ring
  have e2 : (17 + 2 * ws.length) * (u + (b + 1)) =
    17 * (u + (b + 1)) + 2 * (ws.length * u) + 2 * ws.length * (b + 1) := by ring
  have e3 : (1 + ws.length) * u = u + ws.length * u := by ring
  rw [e1, e2, e3]
  generalize u * d = z1 at *
  generalize u * W = z2 at *
  generalize d * (b + 1) = z3 at *
  generalize ws.length * u = z4 at *
  generalize 2 * ws.length * (b + 1) = z5 at *
  constructor <;> omega

/-- Challenges, of `r`, that can save a bad table of a circuit that consists of the hash table only. -/
theorem slack_le {x : Run Fr} {k : ChipKind} {short : Bool} (hbn : x.IsBn k short) (hx : x.Legal)
    (h0 : x.cs.gates = []) (h1 : x.cs.lookups = []) (h2 : x.cs.equality = []) {ops : List (Op Fr)} {kk : ℕ}
    {ω δ : Fr} {K : Key Fr} (hK : keygen x.configured.2 ops (2 ^ kk) ω δ = .ok K) :
    K.slack ≤ 52 * 2 ^ kk ∧ K.loss ≤ 17 * 2 ^ kk :=
  slack_with (d := 0) hbn hx (by simp [csDegree, h0, h1]) (by simp [h0]) h1 h2 (by simp) (by simp) hK

theorem tests_cols {x : Run Fr} {k : ChipKind} {short : Bool} (hbn : x.IsBn k short) (h0 : x.cs.equality = []) :
    (permCols x.configured.2.equality).length ≤ 10 ^ 28 := by
  obtain ⟨⟨lw, -⟩, hn⟩ := hbn.lawful
  refine (permCols_length _).trans ?_
  rw [Run.configured_eq lw]
  simp only [h0, List.nil_append, List.length_append, (chip_size hbn.1 lw _ _ _).2]
  exact (show 8 + 6 ≤ 10 ^ 28 by norm_num)

/-- **C88.** The test circuits of the hash table, on `2^kk` rows with the domain of bn256: keys exist exactly if the
sizes of C76 do, and whoever convinces the verifier for more than `52 * 2^kk` in `r` of all challenges has committed to
a table in which every block carries the digest of its words. -/
theorem C88_tests {k : ChipKind} {ch : Chip Fr 3} (hch : bnChip k = .ok ch) (short legacy : Bool) (mode : LoadMode)
    {STEP : ℕ} {t : HashTable Fr} {calcs : ℕ} (hS : STEP < 2 ^ 64) (hc : calcs < 2 ^ 64)
    (ht : ∀ c ∈ t.controls, c < 2 ^ 64) {kk : ℕ} (hkk : kk ≤ 28) {x : Run Fr}
    (hx : x = testRun ch short legacy mode STEP t calcs) {L' : Layouter Fr} (hL : x.load = .ok L') :
    ((∃ K, keygen x.configured.2 L'.ops (2 ^ kk) (omega kk) delta = .ok K) ↔
      STEP + 8 ≤ 2 ^ kk ∧ calcs + 7 ≤ 2 ^ kk ∧ k.rows * calcs + 6 ≤ 2 ^ kk) ∧
    ∀ K, keygen x.configured.2 L'.ops (2 ^ kk) (omega kk) delta = .ok K → ∀ P : Prover Fr, P.Short (2 ^ kk) →
      52 * 2 ^ kk * Base.Bn256.r ^ 4 < Nat.card {c // P.Convinces K c} →
        x.Accepted k short L' [] (K.grid P.advice) ∧
        ∃ s, x.EnabledAfter (K.grid P.advice) s ∧ ∀ a m, Block x (K.grid P.advice) s a m →
          ∀ c : ℕ, x.col (K.grid P.advice) 3 a = (c : Fr) → (∀ i ≤ m, x.col (K.grid P.advice) 4 (a + i) = 0) →
            2 * (m + 1) < 2 ^ 64 → ∀ i ≤ m,
              hashMsgFr short legacy (wordsOf x (K.grid P.advice) a m) (some c) =
                .ok (x.col (K.grid P.advice) 0 (a + i)) := by
  have hlegal : x.Legal := by
    rw [hx]
    exact ⟨fun i => i.isLt, fun i j h => Fin.ext h, by simp [testRun], hS, hS, hc, ht⟩
  have hbn : x.IsBn k short := by rw [hx]; exact ⟨hch, rfl⟩
  have eS : x.STEP = STEP := by rw [hx]; rfl
  have ec : x.calcs = calcs := by rw [hx]; rfl
  have el : x.legacy = legacy := by rw [hx]; rfl
  have eb : x.before.ops = [] := by rw [hx]; rfl
  have e0 : x.cs = ⟨6, 1, 0, [], [], []⟩ := by rw [hx]; rfl
  have h0 : ∀ c, x.cs.rots c = ∅ := by rw [hx]; intro c; rfl
  have hf : x.Fresh := by rw [hx]; exact ⟨fun _ _ => rfl, fun _ _ => rfl, fun _ _ => rfl⟩
  obtain ⟨hbl, hu⟩ := C76_alone hbn hlegal h0 kk
  have hnew : x.newOps L' = L'.ops := by rw [Run.newOps, eb]; rfl
  constructor
  · have key := C87_keygen hbn hlegal (Or.inl hL) (post := []) (cs := x.configured.2) (ws := []) (fun c h => h) (n := 2 ^ kk)
      (omega kk) delta (by rw [eb]; simp)
    rw [List.append_nil] at key
    rw [key, ← hnew, CS.blindingWith_nil, C64_rows hbn hlegal hL hf, eS, ec, hbl]
    generalize 2 ^ kk = n
    generalize k.rows * calcs = m
    omega
  · intro K hK P hP hlt
    have hcols := tests_cols hbn (by rw [e0])
    have key := C87_sound hbn hlegal (Or.inl hL) (post := []) (cs := x.configured.2)
      (fun p h => List.mem_of_mem_drop h) (fun p h => List.mem_of_mem_drop h) (by rw [eb]; simp) (by rw [eb]; simp)
      (by rw [List.append_nil]; exact hK) (omega_primitive hkk) (delta_names hkk hcols) hP
    have hsl := (slack_le hbn hlegal (by rw [e0]) (by rw [e0]) (by rw [e0]) hK).1
    rcases key with hacc | hcard
    · refine ⟨hacc, ?_⟩
      obtain ⟨s, hen, h⟩ := C26_block_digest hacc
      refine ⟨s, hen, fun a m hb => ?_⟩
      rw [← el]
      exact (h a m hb).2
    · exact absurd (hcard.trans (Nat.mul_le_mul_right _ hsl)) (not_le.mpr hlt)

/-- **C90.** Real proofs of the test circuits, on `2^kk` rows with the domain of bn256 and any blinding: the witness of
`load` can be proven, but for `17 * 2^kk` in `r` of all challenges, if the rows form complete blocks; if they do not, no
prover with this witness convinces the verifier for more than `52 * 2^kk` in `r`. -/
theorem C90_tests {k : ChipKind} {ch : Chip Fr 3} (hch : bnChip k = .ok ch) (short legacy : Bool) (mode : LoadMode)
    {STEP : ℕ} {t : HashTable Fr} {calcs : ℕ} (hS : STEP < 2 ^ 64) (hc : calcs < 2 ^ 64)
    (ht : ∀ c ∈ t.controls, c < 2 ^ 64) {kk : ℕ} (hkk : kk ≤ 28) {x : Run Fr}
    (hx : x = testRun ch short legacy mode STEP t calcs) {L' : Layouter Fr} (hL : x.load = .ok L') {K : Key Fr}
    (hK : keygen x.configured.2 L'.ops (2 ^ kk) (omega kk) delta = .ok K) {adv : ℕ → Fr[X]}
    (hdeg : ∀ c, (adv c).degree < (2 ^ kk : ℕ))
    (hadv : ∀ c, ∀ r < 2 ^ kk - 6, (adv c).eval (omega kk ^ r) = finalAdvice L'.ops c r) :
    (Complete STEP STEP t calcs → ∃ P : Prover Fr, P.Short (2 ^ kk) ∧ P.advice = adv ∧
      Base.Bn256.r ^ 5 ≤ Nat.card {c // P.Convinces K c} + 17 * 2 ^ kk * Base.Bn256.r ^ 4) ∧
    (¬ Complete STEP STEP t calcs → ∀ P : Prover Fr, P.Short (2 ^ kk) → P.advice = adv →
      Nat.card {c // P.Convinces K c} ≤ 52 * 2 ^ kk * Base.Bn256.r ^ 4) := by
  have hlegal : x.Legal := by
    rw [hx]
    exact ⟨fun i => i.isLt, fun i j h => Fin.ext h, by simp [testRun], hS, hS, hc, ht⟩
  have hbn : x.IsBn k short := by rw [hx]; exact ⟨hch, rfl⟩
  have eS : x.STEP = STEP := by rw [hx]; rfl
  have es : x.step = STEP := by rw [hx]; rfl
  have et : x.table = t := by rw [hx]; rfl
  have ec : x.calcs = calcs := by rw [hx]; rfl
  have eb : x.before.ops = [] := by rw [hx]; rfl
  have e0 : x.cs = ⟨6, 1, 0, [], [], []⟩ := by rw [hx]; rfl
  have h0 : ∀ c, x.cs.rots c = ∅ := by rw [hx]; intro c; rfl
  obtain ⟨hbl, hu⟩ := C76_alone hbn hlegal h0 kk
  have hnew : x.newOps L' = L'.ops := by rw [Run.newOps, eb]; rfl
  obtain ⟨hsl, hlo⟩ := slack_le hbn hlegal (by rw [e0]) (by rw [e0]) (by rw [e0]) hK
  have hK' : keygen x.configured.2 (L'.ops ++ []) (2 ^ kk) (omega kk) delta = .ok K := by rw [List.append_nil]; exact hK
  have hlaid := laid_grid hbn hlegal (Or.inl hL) (post := []) (by rw [eb]; simp) (by rw [eb]; simp) hK' adv
  have hgn : (K.grid adv).usable = 2 ^ kk - 6 ∧ K.ω = omega kk := by
    obtain ⟨-, -, A, -, rfl⟩ := keygen_ok hK
    refine ⟨?_, rfl⟩
    rw [← hu, CS.usableRows, ← CS.blindingWith_nil]
    rfl
  have hhon : x.Honest L' [] (K.grid adv) := by
    refine ⟨hlaid, by rw [eb]; simp, fun c _ r hr => ?_⟩
    rw [List.append_nil, ← hadv c r (by rw [← hgn.1]; exact hr), ← hgn.2]
    rfl
  have hiff : x.Satisfies L' (K.grid adv) ↔ Complete STEP STEP t calcs := by
    obtain ⟨⟨lw, -⟩, hn⟩ := hbn.lawful
    obtain ⟨s, -, -, -, h⟩ := Run.honest_iff lw fr_big hlegal hn (Or.inl hL) hhon
    rw [h, complete_iff, eS, es, et, ec]
  have hcard : Fintype.card Fr = Base.Bn256.r := ZMod.card Base.Bn256.r
  constructor
  · intro hcom
    have hsat := hiff.mpr hcom
    have hg : x.newGates = x.configured.2.gates := by rw [Run.newGates, e0]; rfl
    have hl : x.newLookups = x.configured.2.lookups := by rw [Run.newLookups, e0]; rfl
    obtain ⟨P, h1, h2, h3⟩ := C89_complete hK (omega_primitive hkk) hdeg
      ⟨fun p hp => hsat.gates p (by rw [hg]; exact hp), fun l hl' => hsat.lookups l (by rw [hl]; exact hl')⟩
      (by simp) (by rw [← hnew]; exact hsat.copies)
    refine ⟨P, h1, h2, ?_⟩
    rw [hcard] at h3
    exact h3.trans (Nat.add_le_add_left (Nat.mul_le_mul_right _ hlo) _)
  · intro hcom P hP ha
    by_contra hgt
    push Not at hgt
    have := ((C88_tests hch short legacy mode hS hc ht hkk hx hL).2 K hK P hP hgt).1
    rw [ha] at this
    exact hcom (hiff.mp this.sat)

/-- `MockProver`, which the tests run, accepts a circuit exactly if its witness can be proven with commitments, for more
challenges than a prover of a wrong assignment can ever answer. -/
theorem C90_mock {k : ChipKind} {ch : Chip Fr 3} (hch : bnChip k = .ok ch) (short legacy : Bool) (mode : LoadMode)
    {STEP : ℕ} {t : HashTable Fr} {calcs : ℕ} (hS : STEP < 2 ^ 64) (hc : calcs < 2 ^ 64)
    (ht : ∀ c ∈ t.controls, c < 2 ^ 64) {kk : ℕ} (hkk : kk ≤ 28) {x : Run Fr}
    (hx : x = testRun ch short legacy mode STEP t calcs) :
    Passes x kk ↔ ∃ L', x.load = .ok L' ∧ ∃ K, keygen x.configured.2 L'.ops (2 ^ kk) (omega kk) delta = .ok K ∧
      ∃ P : Prover Fr, P.Short (2 ^ kk) ∧
        (∀ c, ∀ r < 2 ^ kk - 6, (P.advice c).eval (omega kk ^ r) = finalAdvice L'.ops c r) ∧
        52 * 2 ^ kk * Base.Bn256.r ^ 4 < Nat.card {c // P.Convinces K c} := by
  have hlegal : x.Legal := by
    rw [hx]
    exact ⟨fun i => i.isLt, fun i j h => Fin.ext h, by simp [testRun], hS, hS, hc, ht⟩
  have hbn : x.IsBn k short := by rw [hx]; exact ⟨hch, rfl⟩
  have hp := C76_tests hch short legacy mode hS hc ht kk
  have hload := (C41_checks hbn hlegal).1
  unfold FitsCalcs at hload
  have e1 : x.mode = mode ∧ x.table = t ∧ x.calcs = calcs ∧ x.legacy = legacy ∧ x.STEP = STEP := by
    rw [hx]; exact ⟨rfl, rfl, rfl, rfl, rfl⟩
  rw [e1.1, e1.2.1, e1.2.2.1, e1.2.2.2.1, e1.2.2.2.2] at hload
  rw [← hx] at hp
  rw [hp]
  constructor
  · rintro ⟨h1, h2, hcom, hrows⟩
    obtain ⟨L', hL⟩ := hload.mpr ⟨h1, h2⟩
    obtain ⟨K, hK⟩ := (C88_tests hch short legacy mode hS hc ht hkk hx hL).1.mpr hrows
    have hω := omega_primitive hkk
    obtain ⟨P, hP, ha, hcard⟩ := (C90_tests hch short legacy mode hS hc ht hkk hx hL hK
      (adv := fun c => interp (2 ^ kk) (omega kk) (finalAdvice L'.ops c)) (fun c => interp_degree hω _)
      fun c r hr => interp_eval hω _ (by omega)).1 hcom
    refine ⟨L', hL, K, hK, P, hP, fun c r hr => ?_, ?_⟩
    · rw [ha]
      exact interp_eval hω _ (by omega)
    · have h28 : 2 ^ kk ≤ 2 ^ 28 := Nat.pow_le_pow_right (by norm_num) hkk
      have hr : 69 * 2 ^ kk < Base.Bn256.r := lt_of_le_of_lt (Nat.mul_le_mul_left 69 h28) (by norm_num [Base.Bn256.r])
      have h4 : 0 < Base.Bn256.r ^ 4 := by have := Nat.zero_lt_of_lt hr; positivity
      have := Nat.mul_lt_mul_of_pos_right hr h4
      have e5 : Base.Bn256.r ^ 5 = Base.Bn256.r * Base.Bn256.r ^ 4 := by ring
      rw [e5] at hcard
      generalize Base.Bn256.r ^ 4 = q at *
      generalize Base.Bn256.r * q = w at *
      have e6 : 69 * 2 ^ kk * q = 52 * 2 ^ kk * q + 17 * 2 ^ kk * q := by ring
      omega
  · rintro ⟨L', hL, K, hK, P, hP, ha, hcard⟩
    obtain ⟨h1, h2⟩ := hload.mp ⟨L', hL⟩
    refine ⟨h1, h2, ?_, (C88_tests hch short legacy mode hS hc ht hkk hx hL).1.mp ⟨K, hK⟩⟩
    by_contra hcom
    exact absurd ((C90_tests hch short legacy mode hS hc ht hkk hx hL hK hP.advice ha).2 hcom P hP rfl) (by omega)

-- the first test of hash.rs with the table [1, 2], [0, 1] and three calculations, on `2^7` rows: all hypotheses of the
-- theorems above hold together, and there is a prover above the bound of C88
example (b short legacy : Bool) (mode : LoadMode) {ch : Chip Fr 3} (hch : bnChip (.pow5 b) = .ok ch) {x : Run Fr}
    (hx : x = testRun ch short legacy mode 62 ⟨[(1, 2), (0, 1)], [], [], []⟩ 3) :
    ∃ L', x.load = .ok L' ∧ ∃ K, keygen x.configured.2 L'.ops (2 ^ 7) (omega 7) delta = .ok K ∧
      ∃ P : Prover Fr, P.Short (2 ^ 7) ∧ 52 * 2 ^ 7 * Base.Bn256.r ^ 4 < Nat.card {c // P.Convinces K c} ∧
        x.Accepted (.pow5 b) short L' [] (K.grid P.advice) := by
  have hc : Complete 62 62 ⟨[(1, 2), (0, 1)], [], [], []⟩ 3 := by
    refine ⟨fun j _ h => ?_, fun j hj => ?_⟩
    · simp [rowCtl] at h
    · obtain rfl : j = 2 := by omega
      simp [rowCtl, rowWords]
  have hck : ChecksMatch legacy 62 ⟨[(1, 2), (0, 1)], [], [], []⟩ 3 := by
    intro a m _ _ ck h; simp [rowCk] at h
  have hpass : Passes x 7 := by
    rw [hx, C76_tests hch short legacy mode (by norm_num) (by norm_num) (by simp)]
    exact ⟨fun _ => by simp, hck, hc, by norm_num, by norm_num, by simp [ChipKind.rows]⟩
  obtain ⟨L', hL, K, hK, P, hP, -, hgt⟩ :=
    (C90_mock hch short legacy mode (by norm_num) (by norm_num) (by simp) (by norm_num) hx).mp hpass
  exact ⟨L', hL, K, hK, P, hP, hgt, ((C88_tests hch short legacy mode (by norm_num) (by norm_num) (by simp) (by norm_num)
    hx hL).2 K hK P hP hgt).1⟩

-- with a row that asks for a further one and does not get it, no prover of this witness is convincing
example (k : ChipKind) (short legacy : Bool) (mode : LoadMode) {ch : Chip Fr 3} (hch : bnChip k = .ok ch) {x : Run Fr}
    (hx : x = testRun ch short legacy mode 32 ⟨[(1, 2)], [64], [], []⟩ 4) {L' : Layouter Fr} (hL : x.load = .ok L') :
    ∃ K, keygen x.configured.2 L'.ops (2 ^ 8) (omega 8) delta = .ok K ∧ ∀ P : Prover Fr, P.Short (2 ^ 8) →
      (∀ c, ∀ r < 2 ^ 8 - 6, (P.advice c).eval (omega 8 ^ r) = finalAdvice L'.ops c r) →
        Nat.card {c // P.Convinces K c} ≤ 52 * 2 ^ 8 * Base.Bn256.r ^ 4 := by
  obtain ⟨K, hK⟩ := (C88_tests hch short legacy mode (by norm_num) (by norm_num) (by simp) (kk := 8) (by norm_num) hx
    hL).1.mpr ⟨by norm_num, by norm_num, by cases k <;> simp [ChipKind.rows]⟩
  refine ⟨K, hK, fun P hP ha => (C90_tests hch short legacy mode (by norm_num) (by norm_num) (by simp) (by norm_num) hx hL
    hK hP.advice ha).2 (fun h => ?_) P hP rfl⟩
  have := h.next 0 (by norm_num) (by simp [rowCtl])
  simp [rowCtl] at this

end Props
