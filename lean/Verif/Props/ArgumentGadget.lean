import Verif.Props.ArgumentProves
import Verif.Props.HashCircuit
import Verif.Props.GadgetSponge
import Verif.Props.SeptidonTest
import Verif.Props.ArgumentSame
import Verif.Props.Keygen

/-!
# Proofs about the hash gadget and the test circuits of the chips
-/

set_option linter.unusedVariables false
set_option linter.unusedSectionVars false

namespace Props
open Halo2 Circuit Polynomial

variable {F : Type} [Field F] [Fintype F] {t : ℕ}

/-! ### The gadget inside any circuit -/

theorem own_fill {cols : Pow5.Cols t} {kc : ℕ} {L' : Layouter F} (hG : L'.Good (Gadget.OwnCols cols kc))
    {post : List (Op F)} (hp : ∀ k r v, Op.fill k r v ∈ post → RCol.fixed k ∉ Gadget.OwnCols cols kc) :
    ∀ c ∈ {k | RCol.fixed k ∈ Gadget.OwnCols cols kc}, ∀ r v, Op.fill c r v ∉ L'.ops ++ post := by
  intro c hc r v hm
  rcases List.mem_append.mp hm with hm | hm
  · have := hG.below (.fill c r v) hm _ hc (max r (L'.colEnd (.fixed c))) ⟨rfl, le_max_left _ _⟩
    omega
  · exact hp c r v hm hc

theorem fits_log {L L' : Layouter F} {log post : List (Op F)} (h : L'.ops = L.ops ++ log) {u n : ℕ}
    (hf : Fits (L'.ops ++ post) u) (hu : u ≤ n) : Fits log n := by
  intro o ho
  refine (hf o ?_).trans hu
  rw [h]
  simp [ho]

/-- **C99.** The gadget inside any circuit: hash any list of messages as in C45, then lay out anything else. If the
circuit has the gates of the chip and a key, proofs for it show that every returned cell holds the native `Hash::hash`
of its message cells. -/
theorem C99_gadget (fr pr : ℕ) (mds mi : Base.Mds F (t + 1)) (rc : List (Base.State F (t + 1)))
    (hrc : fr + pr ≤ rc.length) (hinv : Matrix.of mds * Matrix.of mi = 1)
    (cols : Pow5.Cols t) (hd : cols.Distinct) (cs cs' : CS F) (c : Pow5.Config F t)
    (hcfg : Pow5.configureChecked (gadgetParams fr pr mds mi rc) cols cs = .ok (c, cs'))
    (L : Layouter F) (kc : ℕ) (hconst : L.constCol = some kc) (hL : L.Good (Gadget.OwnCols cols kc))
    (prog : List (List (ACell F) → List (ACell F))) (hne : ∀ f ∈ prog, ∀ outs, f outs ≠ [])
    {outs : List (ACell F)} {L' : Layouter F}
    (hrun : hashAll (gadgetParams fr pr mds mi rc) c L [] prog = .ok (outs, L')) {post : List (Op F)}
    (hlater : Later cols kc L' post) (hfill : ∀ k r v, Op.fill k r v ∈ post → RCol.fixed k ∉ Gadget.OwnCols cols kc)
    {whole : CS F} {ws : List (Wide F)} (hgates : ∀ p ∈ cs'.gates, p ∈ whole.gates) {n : ℕ} {ω δ : F} {K : Key F}
    (hK : keygenWith whole ws (L'.ops ++ post) n ω δ = .ok K) (hω : IsPrimitiveRoot ω n)
    (hδ : DistinctNames whole n ω δ) :
    K.Proves fun g => ∀ (i : ℕ) f x, prog[i]? = some f → outs[i]? = some x →
      nativeConstHash fr pr mds rc ((f (outs.take i)).map fun a => g.cell a.cell) = .ok (g.cell x.cell) := by
  obtain ⟨outs', L'', log, e, ho, -, hG, -, h⟩ := C45_gadget fr pr mds mi rc hrc hinv cols hd cs cs' c hcfg L kc hconst hL
    prog hne
  rw [hrun] at e
  cases e
  refine proves_of hK hω hδ fun adv h1 h2 => ?_
  obtain ⟨k1, -, k2, -⟩ := key_fixed hK adv
  exact (h post _ hlater).1 (key_instance hK (own_fill hG hfill) h2) (fits_log ho k2 k1)
    fun p hp => h1.1 p (hgates p hp)

/-- The same for the duplex sponge of C52. -/
theorem C99_sponge (fr pr : ℕ) (mds mi : Base.Mds F (t + 1)) (rc : List (Base.State F (t + 1)))
    (hrc : fr + pr ≤ rc.length) (hinv : Matrix.of mds * Matrix.of mi = 1)
    (cols : Pow5.Cols t) (hd : cols.Distinct) (cs cs' : CS F) (c : Pow5.Config F t)
    (hcfg : Pow5.configureChecked (gadgetParams fr pr mds mi rc) cols cs = .ok (c, cs'))
    (L : Layouter F) (kc : ℕ) (hconst : L.constCol = some kc) (hL : L.Good (Gadget.OwnCols cols kc)) (cap : F)
    (words : List (Pow5.PaddedWord F)) (hne : words ≠ []) (hmod : words.length % t = 0) (m : ℕ)
    {outs : List (ACell F)} {L' : Layouter F}
    (hrun : spongeRun (gadgetParams fr pr mds mi rc) c cap L words m = .ok (outs, L')) {post : List (Op F)}
    (hlater : Later cols kc L' post) (hfill : ∀ k r v, Op.fill k r v ∈ post → RCol.fixed k ∉ Gadget.OwnCols cols kc)
    {whole : CS F} {ws : List (Wide F)} (hgates : ∀ p ∈ cs'.gates, p ∈ whole.gates) {n : ℕ} {ω δ : F} {K : Key F}
    (hK : keygenWith whole ws (L'.ops ++ post) n ω δ = .ok K) (hω : IsPrimitiveRoot ω n)
    (hδ : DistinctNames whole n ω δ) :
    K.Proves fun g => outs.map (fun x => g.cell x.cell) = (List.range m).map (spongeOutput
      (Spec.poseidon (fun x => x ^ 5) (Matrix.of mds) (fr / 2) pr fun r => rc.getD r 0) cap
      (words.map (wordValue fun a => g.cell a.cell))) := by
  obtain ⟨outs', L'', log, e, ho, hG, -, -, h⟩ := C52_gadget_sponge fr pr mds mi rc hrc hinv cols hd cs cs' c hcfg L kc
    hconst hL cap words hne hmod m _ rfl
  rw [hrun] at e
  cases e
  refine proves_of hK hω hδ fun adv h1 h2 => ?_
  obtain ⟨k1, -, k2, -⟩ := key_fixed hK adv
  exact (h post _ hlater).1 (key_instance hK (own_fill hG hfill) h2) (fits_log ho k2 k1)
    fun p hp => h1.1 p (hgates p hp)

/-! ### The test circuits of the Pow5 chip -/

open TestCircuit

omit [Fintype F] in
theorem hash_cs {S : Pow5.Params F t} {n : ℕ} {m : Fin n → F} {y : F} {cs : CS F} {L : Layouter F}
    (h : hashCircuit S m y = .ok (cs, L)) : cs.blindingFactors = 5 ∧ 0 < t ∧ cs = ⟨t + 2, 2 * (t + 1), 4,
      Pow5.gates (Pow5.config S (testCols t) 0), [], Col.fixed (t + 1) :: Pow5.eqCols (testCols t)⟩ := by
  simp only [hashCircuit, hashConfigure, columns_eq, CS.enableEquality] at h
  cases hc : Pow5.configureChecked S (testCols t)
      (CS.mk (t + 2) (2 * (t + 1)) 0 [] [] ([] ++ [Col.fixed ((testCols t).rcB 0)])) with
  | error e => rw [hc] at h; cases h
  | ok p =>
    obtain ⟨c, cs'⟩ := p
    rw [hc] at h
    have h' : (do
        let L ← hashSynthesize S c m y (freshLayouter (some ((testCols t).rcB 0)))
        pure (cs', L) : Except Panic (CS F × Layouter F)) = .ok (cs, L) := h
    cases hL : hashSynthesize S c m y (freshLayouter (some ((testCols t).rcB 0))) with
    | error e => rw [hL] at h'; cases h'
    | ok L' =>
      rw [hL] at h'
      cases h'
      refine ⟨pow5_blinding S hc rfl rfl, ?_⟩
      obtain ⟨-, ht, -, rfl⟩ := configure_ok hc
      exact ⟨ht, rfl⟩

omit [Fintype F] in
theorem permute_cs {S : Pow5.Params F t} {x y : Fin (t + 1) → F} {cs : CS F} {L : Layouter F}
    (h : permuteCircuit S x y = .ok (cs, L)) : cs.blindingFactors = 5 ∧ 0 < t ∧ cs = ⟨t + 2, 2 * (t + 1), 4,
      Pow5.gates (Pow5.config S (testCols t) 0), [], Pow5.eqCols (testCols t)⟩ := by
  simp only [permuteCircuit, permuteConfigure, columns_eq] at h
  cases hc : Pow5.configureChecked S (testCols t) (CS.mk (t + 2) (2 * (t + 1)) 0 [] [] []) with
  | error e => rw [hc] at h; cases h
  | ok p =>
    obtain ⟨c, cs'⟩ := p
    rw [hc] at h
    have h' : (do
        let L ← permuteSynthesize S c x y (freshLayouter none)
        pure (cs', L) : Except Panic (CS F × Layouter F)) = .ok (cs, L) := h
    cases hL : permuteSynthesize S c x y (freshLayouter none) with
    | error e => rw [hL] at h'; cases h'
    | ok L' =>
      rw [hL] at h'
      cases h'
      refine ⟨pow5_blinding S hc rfl rfl, ?_⟩
      obtain ⟨-, ht, -, rfl⟩ := configure_ok hc
      exact ⟨ht, rfl⟩

omit [Fintype F] in
theorem test_key {cs : CS F} {ops : List (Op F)} {m : ℕ} (hb : cs.blindingFactors = 5) (hm : 2 ≤ m)
    (hf : ∀ u, Fits ops u ↔ m ≤ u)
    (hcop : ∀ a b, Op.copy a b ∈ ops → (a.col ∈ cs.equality ∧ a.row < m) ∧ b.col ∈ cs.equality ∧ b.row < m) (n : ℕ)
    (ω δ : F) : (∃ K, keygen cs ops n ω δ = .ok K) ↔ m + 6 ≤ n := by
  constructor
  · rintro ⟨K, hK⟩
    obtain ⟨h1, h2, -⟩ := keygen_ok hK
    rw [CS.blindingWith_nil, hb] at h1 h2
    rw [hf] at h2
    omega
  · intro h
    refine keygen_of ?_ ?_ ω δ fun a b hm => ?_
    · rw [CS.blindingWith_nil, hb]; omega
    · rw [CS.blindingWith_nil, hb, hf]; omega
    · obtain ⟨⟨a1, a2⟩, b1, b2⟩ := hcop a b hm
      rw [CS.blindingWith_nil, hb]
      exact ⟨cellIndex_exists (mem_permCols.mpr a1) (by omega) (by omega),
        cellIndex_exists (mem_permCols.mpr b1) (by omega) (by omega)⟩

omit [Fintype F] in
theorem key_usable {cs : CS F} {ops : List (Op F)} {n : ℕ} {ω δ : F} {K : Key F} (hK : keygen cs ops n ω δ = .ok K) :
    Fits ops K.usable ∧ K.usable ≤ K.n := by
  obtain ⟨h1, h2, s, -, rfl⟩ := keygen_ok hK
  exact ⟨h2, Nat.sub_le _ _⟩

/-- **C99** (hash circuit). Any width, round numbers, constants and message as in C75, and any claimed output `y`:
`HashCircuit` has a key exactly if there are `hashRows` and six more rows; proofs for it show that the cell of the
claimed output is the native hash of the words in row 0; and if `y` is the native hash of the message, the honest prover
shows just this message and output. -/
theorem C99_hash (fr pr : ℕ) (mds mi : Base.Mds F (t + 1)) (rc : List (Base.State F (t + 1)))
    (hrc : fr + pr ≤ rc.length) (hinv : Matrix.of mds * Matrix.of mi = 1) (hev : fr % 2 = 0) (hpr : 2 ≤ pr)
    (ht : 0 < t) {w : ℕ} (hw : 0 < w) (hwt : w ≤ t + 1) (m : Fin w → F) (y : F) :
    ∃ cs L, hashCircuit (gadgetParams fr pr mds mi rc) m y = .ok (cs, L) ∧ ∀ (n : ℕ) (ω δ : F),
      ((∃ K, keygen cs L.ops n ω δ = .ok K) ↔ hashRows fr pr t w + 6 ≤ n) ∧
      ∀ K, keygen cs L.ops n ω δ = .ok K → IsPrimitiveRoot ω n → DistinctNames cs n ω δ →
        (K.Proves fun g => nativeConstHash fr pr mds rc (List.ofFn fun i : Fin w => g.advice i 0) =
          .ok (g.advice 0 (hashRows fr pr t w - 1))) ∧
        (nativeConstHash fr pr mds rc (List.ofFn m) = .ok y →
          K.Shows fun g => (∀ i : Fin w, g.advice i 0 = m i) ∧ g.advice 0 (hashRows fr pr t w - 1) = y) := by
  obtain ⟨cs, L, e, h1, ⟨h2, h3⟩, h4, h5, -⟩ := C75_hash fr pr mds mi rc hrc hinv hev hpr ht hw hwt m y
  obtain ⟨hb, -, -⟩ := hash_cs e
  refine ⟨cs, L, e, fun n ω δ => ?_⟩
  have hR : 2 ≤ hashRows fr pr t w := by unfold hashRows; omega
  refine ⟨test_key hb hR h1 h2 n ω δ, fun K hK hω hδ => ⟨?_, fun hy => ?_⟩⟩
  · refine proves_of hK hω hδ fun adv c1 c2 => ?_
    obtain ⟨k1, -, k2, -⟩ := key_fixed hK adv
    exact h4 _ (key_instance hK (fun c _ => h3 c) c2) (((h1 _).mp k2).trans k1) c1
  · obtain ⟨u1, u2⟩ := key_usable hK
    rw [h1] at u1
    refine shows_of hK hω h3 (fun g gn gu hg => ?_) fun g hg => ?_
    · obtain ⟨a, -, -, b⟩ := h5 g hg (by rw [gu]; exact u1)
      exact ⟨a, b.mpr hy⟩
    · obtain ⟨-, a, b, -⟩ := h5 ⟨K.n, K.usable, finalAdvice L.ops, finalFixed L.ops, finalSelector L.ops⟩
        ⟨u2, fun _ _ _ _ => rfl, fun _ _ _ _ => rfl, fun _ _ _ _ => rfl⟩ u1
      refine ⟨fun i => ?_, ?_⟩
      · rw [hg _ _ (by omega)]; exact a i
      · rw [hg _ _ (by omega)]; exact b

/-- **C99** (permute circuit). `PermuteCircuit` has a key exactly if there are eight rows more than one permutation takes;
proofs for it show that the last row is the textbook permutation of row 0; and if `y` is the permutation of `x`, the
honest prover shows just these. -/
theorem C99_permute (fr pr : ℕ) (mds mi : Base.Mds F (t + 1)) (rc : List (Base.State F (t + 1)))
    (hinv : Matrix.of mds * Matrix.of mi = 1) (hev : fr % 2 = 0) (ht : 0 < t) (x y : Fin (t + 1) → F)
    (π : (Fin (t + 1) → F) → Fin (t + 1) → F)
    (hπ : π = Spec.poseidon (fun v => v ^ 5) (Matrix.of mds) (fr / 2) pr fun r => rc.getD r 0) :
    ∃ cs L, permuteCircuit (gadgetParams fr pr mds mi rc) x y = .ok (cs, L) ∧ ∀ (n : ℕ) (ω δ : F),
      ((∃ K, keygen cs L.ops n ω δ = .ok K) ↔ permRows fr pr + 8 ≤ n) ∧
      ∀ K, keygen cs L.ops n ω δ = .ok K → IsPrimitiveRoot ω n → DistinctNames cs n ω δ →
        (K.Proves fun g => (fun i : Fin (t + 1) => g.advice i (permRows fr pr + 1)) =
          π fun i : Fin (t + 1) => g.advice i 0) ∧
        (y = π x → K.Shows fun g => ∀ i : Fin (t + 1), g.advice i 0 = x i ∧ g.advice i (permRows fr pr + 1) = y i) := by
  subst hπ
  obtain ⟨cs, L, e, h1, ⟨h2, h3⟩, h4, h5, -⟩ := C75_permute fr pr mds mi rc hinv hev ht x y
  obtain ⟨hb, -, -⟩ := permute_cs e
  refine ⟨cs, L, e, fun n ω δ => ?_⟩
  refine ⟨(test_key hb (by omega) h1 h2 n ω δ).trans (by omega), fun K hK hω hδ => ⟨?_, fun hy => ?_⟩⟩
  · refine proves_of hK hω hδ fun adv c1 c2 => ?_
    obtain ⟨k1, -, k2, -⟩ := key_fixed hK adv
    exact h4 _ (key_instance hK (fun c _ => h3 c) c2) (((h1 _).mp k2).trans k1) c1
  · obtain ⟨u1, u2⟩ := key_usable hK
    rw [h1] at u1
    refine shows_of hK hω h3 (fun g gn gu hg => ?_) fun g hg i => ?_
    · obtain ⟨a, -, b⟩ := h5 g hg (by rw [gu]; exact u1)
      exact ⟨a, b.mpr hy⟩
    · obtain ⟨-, a, -⟩ := h5 ⟨K.n, K.usable, finalAdvice L.ops, finalFixed L.ops, finalSelector L.ops⟩
        ⟨u2, fun _ _ _ _ => rfl, fun _ _ _ _ => rfl, fun _ _ _ _ => rfl⟩ u1
      rw [hg _ _ (by omega), hg _ _ (by omega)]
      exact a i

/-! ### Sizes -/

omit [Fintype F] in
/-- Challenges that can save a wrong assignment, and that an honest prover cannot answer, of circuits with polynomials of
degree 6 and without lookups. -/
theorem small_slack {cs : CS F} {ops : List (Op F)} {n : ℕ} {ω δ : F} {K : Key F} (hK : keygen cs ops n ω δ = .ok K)
    (hd : csDegree cs = 6) (hl : cs.lookups = []) {c p : ℕ} (hc : (permCols cs.equality).length ≤ c)
    (hp : (cs.gates.flatMap fun p => p.polys).length ≤ p) (hcp : p ≤ 20 + 16 * c) :
    K.slack ≤ (3 * c + 10) * n ∧ K.loss ≤ (c + 1) * n := by
  obtain ⟨hmin, hfits, A, -, rfl⟩ := keygen_ok hK
  have hdw : cs.degreeWith [] = 6 := by rw [CS.degreeWith_nil, degree_eq, hd]; rfl
  have hbl : 5 ≤ cs.blindingWith [] := by
    unfold CS.blindingWith
    omega
  unfold Key.loss Key.slack Key.rest Key.width Key.numTerms Key.chunks Key.chunkLen Key.degree Key.lookups Key.cols
  simp only [hl, hdw, List.map_nil, List.append_nil, List.foldr_nil, List.length_nil, mul_zero, add_zero, zero_add]
  generalize cs.blindingWith [] = b at *
  obtain ⟨u, rfl⟩ : ∃ u, n = u + (b + 1) := ⟨n - (b + 1), by omega⟩
  rw [Nat.add_sub_cancel]
  have h1 : (permCols cs.equality).length * u ≤ c * u := Nat.mul_le_mul_right _ hc
  have h2 : c * 6 ≤ c * (b + 1) := Nat.mul_le_mul_left _ (by omega)
  have h3 : ((permCols cs.equality).length + (6 - 2) - 1) / (6 - 2) ≤ (c + 3) / 4 := by omega
  have e1 : (3 * c + 10) * (u + (b + 1)) = 3 * (c * u) + 3 * (c * (b + 1)) + 10 * (u + (b + 1)) := by ring
  have e2 : (c + 1) * (u + (b + 1)) = c * u + c * (b + 1) + (u + (b + 1)) := by ring
  rw [e1, e2]
  generalize c * u = x1 at *
  generalize c * (b + 1) = x2 at *
  generalize (permCols cs.equality).length * u = x3 at *
  constructor <;> omega

/-! ### The domain of Pallas -/

namespace Pallas
open Base.Pasta

/-- `ROOT_OF_UNITY` of `pasta::Fp`, the generator 5 to the odd part of `p - 1`. -/
def rootOfUnity : Fp := 5 ^ ((p - 1) / 2 ^ 32)

/-- `EvaluationDomain::new`: the root of unity, squared until its order is `2^k`. -/
def omega (k : ℕ) : Fp := rootOfUnity ^ 2 ^ (32 - k)

/-- `DELTA` of `pasta::Fp`. -/
def delta : Fp := 5 ^ 2 ^ 32

example : rootOfUnity = 0x2bce74deac30ebda362120830561f81aea322bf2b7bb7584bdad6fabd87ea32f := by
  have := Pratt.powMod_eq 5 ((p - 1) / 2 ^ 32) p (by decide +kernel)
  have h : Pratt.powMod 5 ((p - 1) / 2 ^ 32) p =
    0x2bce74deac30ebda362120830561f81aea322bf2b7bb7584bdad6fabd87ea32f := by decide +kernel
  rw [h] at this
  exact (this.trans (congrArg (· ^ ((p - 1) / 2 ^ 32)) (Nat.cast_ofNat (R := ZMod p) (n := 5)))).symm.trans
    (Nat.cast_ofNat (R := ZMod p))

theorem five_pow_ne {e : ℕ} (he : e < 2 ^ 300) (h : Pratt.powMod 5 e p % p ≠ 1 % p) : (5 : Fp) ^ e ≠ 1 := by
  intro h1
  have := Pratt.powMod_eq 5 e p he
  have h2 : ((Pratt.powMod 5 e p : ℕ) : Fp) = ((1 : ℕ) : Fp) := by
    rw [Nat.cast_one]
    exact this.trans (by exact_mod_cast h1)
  exact h ((ZMod.natCast_eq_natCast_iff' _ _ _).mp h2)

theorem five_ne : (5 : Fp) ≠ 0 := by
  have : ((5 : ℕ) : ZMod p) ≠ 0 := by
    rw [Ne, ZMod.natCast_eq_zero_iff]
    decide +kernel
  exact_mod_cast this

theorem five_pow_card : (5 : Fp) ^ (p - 1) = 1 := ZMod.pow_card_sub_one_eq_one five_ne

/-- The domain of `2^k` rows has `2^k` points. -/
theorem omega_primitive {k : ℕ} (hk : k ≤ 32) : IsPrimitiveRoot (omega k) (2 ^ k) := by
  have ho : orderOf rootOfUnity = 2 ^ (31 + 1) := by
    apply orderOf_eq_prime_pow
    · rw [rootOfUnity, ← pow_mul]
      exact five_pow_ne (by decide +kernel) (by decide +kernel)
    · rw [rootOfUnity, ← pow_mul, show (p - 1) / 2 ^ 32 * 2 ^ (31 + 1) = p - 1 by decide +kernel]
      exact five_pow_card
  have h := IsPrimitiveRoot.orderOf rootOfUnity
  rw [ho] at h
  exact h.pow (by positivity) (by rw [← pow_add]; congr 1; omega)

/-- The cells of up to `10^20` columns have different names. -/
theorem delta_names {cs : CS Fp} {k : ℕ} (hk : k ≤ 32) (hc : (permCols cs.equality).length ≤ 10 ^ 20) :
    DistinctNames cs (2 ^ k) (omega k) delta := by
  have hd0 : ∀ i, (delta : Fp) ^ i ≠ 0 := fun i => pow_ne_zero _ (pow_ne_zero _ five_ne)
  have key : ∀ i j, i < 10 ^ 20 → j < 10 ^ 20 → ∀ s u, delta ^ i * omega k ^ s = delta ^ j * omega k ^ u → i = j := by
    have hp : ∀ d : ℕ, (5 : Fp) ^ (2 ^ 32 * 2 ^ 32 * d) = 1 → 539204044132271846773 ∣ d := by
      intro d hd
      have h1 : orderOf (5 : Fp) ∣ 2 ^ 32 * 2 ^ 32 * d := orderOf_dvd_of_pow_eq_one hd
      have h2 : orderOf (5 : Fp) ∣ p - 1 := orderOf_dvd_of_pow_eq_one five_pow_card
      have h3 : 539204044132271846773 ∣ orderOf (5 : Fp) := by
        by_contra h
        have hcop : Nat.Coprime (orderOf (5 : Fp)) 539204044132271846773 :=
          ((Nat.Prime.coprime_iff_not_dvd prime_539204044132271846773).mpr h).symm
        have e : p - 1 = 539204044132271846773 * ((p - 1) / 539204044132271846773) := by decide +kernel
        rw [e] at h2
        have := orderOf_dvd_iff_pow_eq_one.mp (hcop.dvd_of_dvd_mul_left h2)
        exact five_pow_ne (by decide +kernel) (by decide +kernel) this
      have h4 := h3.trans h1
      exact (Nat.Coprime.dvd_mul_left (by decide +kernel)).mp h4
    have hpow : ∀ (x : Fp) (e d : ℕ), ((x ^ e) ^ d) ^ e = x ^ (e * e * d) := fun x e d => by ring
    have wlog : ∀ i j, i ≤ j → j < 10 ^ 20 → ∀ s u, delta ^ i * omega k ^ s = delta ^ j * omega k ^ u → i = j := by
      intro i j hij hj s u h
      have h32 : omega k ^ 2 ^ 32 = 1 := by
        have := (omega_primitive hk).pow_eq_one
        rw [show 2 ^ 32 = 2 ^ k * 2 ^ (32 - k) by rw [← pow_add]; congr 1; omega, pow_mul, this, one_pow]
      have h := congrArg (· ^ 2 ^ 32) h
      simp only [mul_pow] at h
      rw [← pow_mul _ s, mul_comm s, pow_mul _ (2 ^ 32) s, h32, ← pow_mul _ u, mul_comm u, pow_mul _ (2 ^ 32) u, h32,
        one_pow, one_pow, mul_one, mul_one] at h
      obtain ⟨d, rfl⟩ := Nat.exists_eq_add_of_le hij
      rw [pow_add, mul_pow] at h
      have h1 : (delta ^ d) ^ 2 ^ 32 = 1 := mul_left_cancel₀ (pow_ne_zero _ (hd0 i)) (by rw [mul_one]; exact h.symm)
      have h3 := hp d ((hpow 5 (2 ^ 32) d).symm.trans h1)
      have : d = 0 := Nat.eq_zero_of_dvd_of_lt h3 (by omega)
      omega
    intro i j hi hj s u h
    rcases le_total i j with hij | hij
    · exact wlog i j hij hj s u h
    · exact (wlog j i hij hi u s h.symm).symm
  intro i j hi hj s u hs hu h
  have e := key i j (by omega) (by omega) s u h
  subst e
  exact ⟨rfl, (omega_primitive hk).pow_inj hs hu (mul_left_cancel₀ (hd0 i) h)⟩

end Pallas

/-- **C99** (the tests of the Pow5 chip, over Pallas). On `2^k` rows, whatever the message and the claimed output: the
circuit has a key exactly if `k` is at least 6, or 7 for three words; proofs for it show that the cell of the output is
the native hash of the words in row 0; the honest prover shows any message with its native hash; wrong assignments are
saved by at most `31 * 2^k` and true ones spoilt by at most `8 * 2^k` in `p` of all challenges. -/
theorem C99_pasta (short : Bool) {w : ℕ} (hw : 0 < w) (hw3 : w ≤ 3) (m : Fin w → Base.Pasta.Fp) (y : Base.Pasta.Fp) :
    ∃ cs L, hashCircuit (gadgetParams 8 56 Base.Pasta.mds Base.Pasta.mdsInv Base.Pasta.roundConstants) m y =
        .ok (cs, L) ∧ ∀ k ≤ 32,
      ((∃ K, keygen cs L.ops (2 ^ k) (Pallas.omega k) Pallas.delta = .ok K) ↔ (if w = 3 then 7 else 6) ≤ k) ∧
      ∀ K, keygen cs L.ops (2 ^ k) (Pallas.omega k) Pallas.delta = .ok K →
        (K.slack ≤ 31 * 2 ^ k ∧ K.loss ≤ 8 * 2 ^ k) ∧
        (K.Proves fun g => Base.Pasta.hashFp short (fun i : Fin w => g.advice i 0) =
          .ok (g.advice 0 (if w = 3 then 82 else 42))) ∧
        (Base.Pasta.hashFp short m = .ok y →
          K.Shows fun g => (∀ i : Fin w, g.advice i 0 = m i) ∧ g.advice 0 (if w = 3 then 82 else 42) = y) := by
  obtain ⟨cs, L, e, h⟩ := C99_hash 8 56 Base.Pasta.mds Base.Pasta.mdsInv Base.Pasta.roundConstants
    (by rw [Base.Pasta.roundConstants_length]) Base.Pasta.mds_mul_mdsInv (by norm_num) (by norm_num) (by norm_num)
    hw hw3 m y
  have hr : hashRows 8 56 2 w = if w = 3 then 83 else 43 := by
    have : w = 1 ∨ w = 2 ∨ w = 3 := by omega
    rcases this with rfl | rfl | rfl <;> simp [hashRows, permRows]
  have hr' : hashRows 8 56 2 w - 1 = if w = 3 then 82 else 42 := by rw [hr]; split_ifs <;> rfl
  rw [hr'] at h
  refine ⟨cs, L, e, fun k hk => ?_⟩
  obtain ⟨h1, h2⟩ := h (2 ^ k) (Pallas.omega k) Pallas.delta
  have pw : ∀ a b j k, 2 ^ j < a + 6 → a + 6 ≤ 2 ^ (j + 1) → b = j + 1 → (a + 6 ≤ 2 ^ k ↔ b ≤ k) := by
    rintro a b j k h1 h2 rfl
    constructor
    · intro h
      by_contra hk
      have : 2 ^ k ≤ 2 ^ j := Nat.pow_le_pow_right (by norm_num) (by omega)
      omega
    · intro h
      exact h2.trans (Nat.pow_le_pow_right (by norm_num) h)
  obtain ⟨-, ht, ecs⟩ := hash_cs e
  have hcols : (permCols cs.equality).length ≤ 7 := (permCols_length _).trans (by rw [ecs]; simp [Pow5.eqCols])
  refine ⟨h1.trans ?_, fun K hK => ⟨?_, ?_⟩⟩
  · rw [hr]
    split_ifs
    · exact pw 83 7 6 k (by norm_num) (by norm_num) rfl
    · exact pw 43 6 5 k (by norm_num) (by norm_num) rfl
  · refine small_slack hK ?_ (by rw [ecs]) hcols (p := 13) ?_ (by norm_num)
    · have := C53_pow5_degree ht (gadgetParams 8 56 Base.Pasta.mds Base.Pasta.mdsInv Base.Pasta.roundConstants)
        (testCols 2) ⟨4, 6, 0, [], [], [Col.fixed 3]⟩
      rw [show (Pow5.configure _ (testCols 2)).run _ = _ from Pow5.configure_eq _ _ _] at this
      rw [ecs]
      exact this
    · rw [ecs]
      simp [Pow5.gates, Pow5.fullGate, Pow5.partialGate, Pow5.singleGate, Pow5.padGate]
  · have := h2 K hK (Pallas.omega_primitive hk) (Pallas.delta_names hk (hcols.trans (by norm_num)))
    refine ⟨this.1.mono fun g hg => ?_, fun hy => this.2 ?_⟩
    · rw [← pasta_native short]; exact hg
    · rw [pasta_native short]; exact hy

/-- `PermuteCircuit` of the tests, likewise. -/
theorem C99_pasta_permute (short : Bool) (x y : Fin 3 → Base.Pasta.Fp) :
    ∃ cs L, permuteCircuit (gadgetParams 8 56 Base.Pasta.mds Base.Pasta.mdsInv Base.Pasta.roundConstants) x y =
        .ok (cs, L) ∧ ∀ k ≤ 32,
      ((∃ K, keygen cs L.ops (2 ^ k) (Pallas.omega k) Pallas.delta = .ok K) ↔ 6 ≤ k) ∧
      ∀ K, keygen cs L.ops (2 ^ k) (Pallas.omega k) Pallas.delta = .ok K →
        (K.slack ≤ 28 * 2 ^ k ∧ K.loss ≤ 7 * 2 ^ k) ∧
        (K.Proves fun g => Base.Pasta.permuteFp short (fun i : Fin 3 => g.advice i 0) =
          .ok fun i : Fin 3 => g.advice i 38) ∧
        (Base.Pasta.permuteFp short x = .ok y →
          K.Shows fun g => ∀ i : Fin 3, g.advice i 0 = x i ∧ g.advice i 38 = y i) := by
  obtain ⟨cs, L, e, h⟩ := C99_permute 8 56 Base.Pasta.mds Base.Pasta.mdsInv Base.Pasta.roundConstants
    Base.Pasta.mds_mul_mdsInv (by norm_num) (by norm_num) x y _ rfl
  have hr : permRows 8 56 = 37 := by simp [permRows]
  rw [hr] at h
  refine ⟨cs, L, e, fun k hk => ?_⟩
  obtain ⟨h1, h2⟩ := h (2 ^ k) (Pallas.omega k) Pallas.delta
  obtain ⟨-, ht, ecs⟩ := permute_cs e
  have hcols : (permCols cs.equality).length ≤ 6 := (permCols_length _).trans (by rw [ecs]; simp [Pow5.eqCols])
  refine ⟨h1.trans ?_, fun K hK => ⟨?_, ?_⟩⟩
  · constructor
    · intro h
      by_contra hk
      have : 2 ^ k ≤ 2 ^ 5 := Nat.pow_le_pow_right (by norm_num) (by omega)
      omega
    · intro h
      exact (show 37 + 8 ≤ 2 ^ 6 by norm_num).trans (Nat.pow_le_pow_right (by norm_num) h)
  · refine small_slack hK ?_ (by rw [ecs]) hcols (p := 13) ?_ (by norm_num)
    · have := C53_pow5_degree ht (gadgetParams 8 56 Base.Pasta.mds Base.Pasta.mdsInv Base.Pasta.roundConstants)
        (testCols 2) ⟨4, 6, 0, [], [], []⟩
      rw [show (Pow5.configure _ (testCols 2)).run _ = _ from Pow5.configure_eq _ _ _] at this
      rw [ecs]
      exact this
    · rw [ecs]
      simp [Pow5.gates, Pow5.fullGate, Pow5.partialGate, Pow5.singleGate, Pow5.padGate]
  · have := h2 K hK (Pallas.omega_primitive hk) (Pallas.delta_names hk (hcols.trans (by norm_num)))
    refine ⟨this.1.mono fun g hg => ?_, fun hy => this.2 ?_⟩
    · rw [(C50_pasta_permutation short).1, Except.ok.injEq]
      exact hg.symm
    · rw [(C50_pasta_permutation short).1, Except.ok.injEq] at hy
      exact hy.symm

/-! ### One key for all messages -/

omit [Fintype F] in
theorem knownOp_inj {u u' : Op F} (h : knownOp u = knownOp u') : u = u' := by
  cases u <;> cases u' <;> simp only [knownOp, Op.advice.injEq, Op.fixed.injEq, Op.selector.injEq, Op.copy.injEq,
    Op.constant.injEq, Op.fill.injEq, Option.some.injEq, reduceCtorEq] at h <;> simp [h]

omit [Fintype F] in
theorem keyOf_keyOps {l : List (Op (Value F))} {a b : List (Op F)} (ha : List.Forall₂ SamePlace l a)
    (hb : List.Forall₂ SamePlace l b) : keyOps a = keyOps b := by
  have cons : ∀ (x : Op F) xs, keyOps (x :: xs) = keyOps [x] ++ keyOps xs := fun x xs => keyOps_append [x] xs
  have one : ∀ (o : Op (Value F)) (u u' : Op F), SamePlace o u → SamePlace o u' → keyOps [u] = keyOps [u'] := by
    intro o u u' h h'
    rcases h with rfl | ⟨c, r, v, x, rfl, rfl⟩ <;> rcases h' with e | ⟨c', r', v', x', e, rfl⟩
    · rw [knownOp_inj e]
    · cases u <;> simp only [knownOp, reduceCtorEq] at e
      rfl
    · cases u' <;> simp only [knownOp, reduceCtorEq] at e
      rfl
    · rfl
  induction ha generalizing b with
  | nil => cases hb; rfl
  | cons h _ ih =>
    cases hb with
    | cons h' hb' => rw [cons, ih hb', one _ _ _ h h', ← cons]

/-- **C99** (one key). Layouts of one layout with unknown values have one key, or none of them has one. -/
theorem C99_key {L : Layouter (Value F)} {X X' : Layouter F} (h : KeyOf L X) (h' : KeyOf L X') (cs : CS F)
    (ws : List (Wide F)) (n : ℕ) (ω δ : F) : keygenWith cs ws X.ops n ω δ = keygenWith cs ws X'.ops n ω δ := by
  obtain ⟨-, h2, -, h4⟩ := C79_key h h'
  exact keygen_congr h4 (keyOf_keyOps h.ops h'.ops) h2 n ω δ

/-- **C99** (one key for all messages). The key of `HashCircuit` is made without a witness, as in the tests, and exists
exactly if there are `hashRows` and six more rows. Proofs for it show that the cell of the output is the native hash of
the words in row 0, and for every message there is an honest prover that shows it with its native hash. -/
theorem C99_witness (fr pr : ℕ) (mds mi : Base.Mds F (t + 1)) (rc : List (Base.State F (t + 1)))
    (hrc : fr + pr ≤ rc.length) (hinv : Matrix.of mds * Matrix.of mi = 1) (hev : fr % 2 = 0) (hpr : 2 ≤ pr)
    (ht : 0 < t) {w : ℕ} (hw : 0 < w) (hwt : w ≤ t + 1) (wit : HashWitness F w) :
    ∃ cs L, hashCircuitValues (gadgetParams fr pr mds mi rc) wit.withoutWitnesses = .ok (cs, L) ∧
      (∃ X, KeyOf L X) ∧ ∀ X, KeyOf L X → ∀ (n : ℕ) (ω δ : F),
      ((∃ K, keygen cs X.ops n ω δ = .ok K) ↔ hashRows fr pr t w + 6 ≤ n) ∧
      ∀ K, keygen cs X.ops n ω δ = .ok K → IsPrimitiveRoot ω n → DistinctNames cs n ω δ →
        (K.Proves fun g => nativeConstHash fr pr mds rc (List.ofFn fun i : Fin w => g.advice i 0) =
          .ok (g.advice 0 (hashRows fr pr t w - 1))) ∧
        ∀ (m : Fin w → F) (y : F), nativeConstHash fr pr mds rc (List.ofFn m) = .ok y →
          K.Shows fun g => (∀ i : Fin w, g.advice i 0 = m i) ∧ g.advice 0 (hashRows fr pr t w - 1) = y := by
  have main := C99_hash fr pr mds mi rc hrc hinv hev hpr ht hw hwt
  have key := C79_circuit (gadgetParams fr pr mds mi rc) wit.withoutWitnesses
  obtain ⟨cs₀, X₀, e₀, -⟩ := main 0 0
  obtain ⟨cs, L, e⟩ : ∃ cs L, hashCircuitValues (gadgetParams fr pr mds mi rc) wit.withoutWitnesses = .ok (cs, L) := by
    cases h : hashCircuitValues (gadgetParams fr pr mds mi rc) wit.withoutWitnesses with
    | error e => rw [((key 0 0).1 e).mp h] at e₀; cases e₀
    | ok u => exact ⟨_, _, rfl⟩
  have each : ∀ m y, ∃ X, KeyOf L X ∧ ∀ (n : ℕ) (ω δ : F),
      ((∃ K, keygen cs X.ops n ω δ = .ok K) ↔ hashRows fr pr t w + 6 ≤ n) ∧
      ∀ K, keygen cs X.ops n ω δ = .ok K → IsPrimitiveRoot ω n → DistinctNames cs n ω δ →
        (K.Proves fun g => nativeConstHash fr pr mds rc (List.ofFn fun i : Fin w => g.advice i 0) =
          .ok (g.advice 0 (hashRows fr pr t w - 1))) ∧
        (nativeConstHash fr pr mds rc (List.ofFn m) = .ok y →
          K.Shows fun g => (∀ i : Fin w, g.advice i 0 = m i) ∧ g.advice 0 (hashRows fr pr t w - 1) = y) := by
    intro m y
    obtain ⟨X, e', k⟩ := (key m y).2 _ _ e
    obtain ⟨cs', X', e'', h⟩ := main m y
    rw [e'] at e''
    injection e'' with e''
    injection e'' with ec eX
    subst ec eX
    exact ⟨X, k, h⟩
  obtain ⟨X₁, k₁, h₁⟩ := each 0 0
  refine ⟨cs, L, e, ⟨X₁, k₁⟩, fun X hX n ω δ => ?_⟩
  have one : ∀ X', KeyOf L X' → keygen cs X.ops n ω δ = keygen cs X'.ops n ω δ :=
    fun X' h' => C99_key hX h' cs [] n ω δ
  refine ⟨by rw [one X₁ k₁]; exact (h₁ n ω δ).1, fun K hK hω hδ => ⟨?_, fun m y hy => ?_⟩⟩
  · exact ((h₁ n ω δ).2 K ((one X₁ k₁).symm.trans hK) hω hδ).1
  · obtain ⟨X₂, k₂, h₂⟩ := each m y
    exact ((h₂ n ω δ).2 K ((one X₂ k₂).symm.trans hK) hω hδ).2 hy

/-! ### The test circuit of the Septidon chip -/

open Base.Bn256 in
/-- **C99** (the test of the Septidon chip, over bn256). `TestCircuit` with any initial state `x`, its permutation as
the expected state and any height has a key on `2^k` rows exactly if its permutations fit into `2^k - 6` rows and `k` is
at least 3; proofs for it show that the final state of each of its permutations is the textbook permutation of its
initial state; and the honest prover shows `x` and the expected state in all of them. -/
theorem C99_septidon (m : Base.Mds Fr 3) (rc : ℕ → Fin 3 → Fr) (hc : ∀ r, 4 ≤ r → r < 61 → ∀ k, k ≠ 0 → rc r k = 0)
    (x y : Fin 3 → Fr) (height : ℕ) (cs : CS Fr) (L : Layouter Fr)
    (hrun : Septidon.testCircuit m rc x y height = .ok (cs, L)) (k : ℕ) (hk : k ≤ 28) :
    ((∃ K, keygen cs L.ops (2 ^ k) (omega k) delta = .ok K) ↔ 3 ≤ k ∧ 8 * (height / 8) + 6 ≤ 2 ^ k) ∧
    ∀ K, keygen cs L.ops (2 ^ k) (omega k) delta = .ok K →
      (K.slack ≤ 10 * 2 ^ k ∧ K.loss ≤ 2 ^ k) ∧
      (K.Proves fun g => ∀ i < height / 8, ∀ j : Fin 3, g.advice 12 (8 * i + 5 + j) =
        Spec.poseidon (fun v => v ^ 5) (Matrix.of m) 4 57 rc (fun j : Fin 3 => g.advice j (8 * i)) j) ∧
      K.Shows fun g => ∀ i < height / 8, ∀ j : Fin 3, g.advice j (8 * i) = x j ∧ g.advice 12 (8 * i + 5 + j) = y j := by
  obtain ⟨h1, h2, hu, hmin, h3, ⟨h4, h5⟩, h6, h7⟩ := C81_circuit m rc hc x y height cs L hrun
  have hb : cs.blindingFactors = 5 := by
    unfold CS.minimumRows at hmin
    omega
  have ecs : cs = ⟨13, 11, 0, Septidon.gates m rc (Septidon.config 0 0), [], []⟩ := by
    unfold Septidon.testCircuit at hrun
    rw [Septidon.configureChip_eq] at hrun
    simp only [bind, Except.bind, pure, Except.pure] at hrun
    split at hrun
    · cases hrun
    · cases hrun; rfl
  have h8 : 3 ≤ k ↔ 8 ≤ 2 ^ k := by
    constructor
    · intro h
      exact Nat.pow_le_pow_right (n := 2) (by norm_num) h
    · intro h
      by_contra hk
      have : 2 ^ k ≤ 2 ^ 2 := Nat.pow_le_pow_right (by norm_num) (by omega)
      omega
  refine ⟨?_, fun K hK => ⟨?_, ?_, ?_⟩⟩
  · rw [h8]
    constructor
    · rintro ⟨K, hK⟩
      obtain ⟨k1, k2, -⟩ := keygen_ok hK
      rw [CS.blindingWith_nil, hb] at k1 k2
      rw [h3] at k2
      omega
    · intro h
      refine keygen_of ?_ ?_ _ _ fun a b hm => absurd hm (h4 a b)
      · rw [CS.blindingWith_nil, hb]; omega
      · rw [CS.blindingWith_nil, hb, h3]; omega
  · have := small_slack hK (c := 0) (p := 18) ?_ (by rw [ecs]) (by rw [h1]; rfl) ?_ (by norm_num)
    · simpa using this
    · have := C53_septidon_degree m rc ⟨0, 0, 0, [], [], []⟩
      rw [show ((Septidon.chip m rc).configure).run _ = _ from Septidon.configure_eq m rc ⟨0, 0, 0, [], [], []⟩] at this
      rw [ecs]
      exact this
    · have := (septidon_size m rc 0 0 0).1
      rw [show (Septidon.chip m rc).configure _ = _ from Septidon.configure_eq m rc ⟨0, 0, 0, [], [], []⟩] at this
      rw [ecs]
      exact this.le
  · refine proves_of hK (omega_primitive hk) (by rw [ecs]; intro i j hi; exact absurd hi (Nat.not_lt_zero _))
      fun adv c1 c2 => ?_
    obtain ⟨k1, -, k2, k3, -⟩ := key_fixed hK adv
    exact h7 _ (fun c r hr => k3 c (h5 c) r) (((h3 _).mp k2).trans k1) c1.1
  · obtain ⟨u1, u2⟩ := key_usable hK
    rw [h3] at u1
    refine shows_of hK (omega_primitive hk) h5 (fun g gn gu hg => ?_) fun g hg i hi j => ?_
    · obtain ⟨-, a, -⟩ := h6 g hg (by rw [gu]; exact u1)
      exact ⟨⟨a, by rw [h2]; intro l hl; cases hl⟩, fun a b hm => absurd hm (h4 a b)⟩
    · obtain ⟨-, -, a⟩ := h6 ⟨K.n, K.usable, finalAdvice L.ops, finalFixed L.ops, finalSelector L.ops⟩
        ⟨u2, fun _ _ _ _ => rfl, fun _ _ _ _ => rfl, fun _ _ _ _ => rfl⟩ u1
      have hj := j.isLt
      rw [hg _ _ (by omega), hg _ _ (by omega)]
      exact a i hi j

/-! ### Non-vacuity -/

/-- The circuits of the tests have keys on the sizes of the tests, and a message with its native hash exists. -/
example (m : Fin 3 → Base.Pasta.Fp) (x : Fin 3 → Base.Pasta.Fp) : (∃ y cs L K,
    hashCircuit (gadgetParams 8 56 Base.Pasta.mds Base.Pasta.mdsInv Base.Pasta.roundConstants) m y = .ok (cs, L) ∧
      keygen cs L.ops (2 ^ 7) (Pallas.omega 7) Pallas.delta = .ok K ∧
      K.Shows fun g => (∀ i : Fin 3, g.advice i 0 = m i) ∧ g.advice 0 82 = y) ∧
    ∃ y cs L K,
      permuteCircuit (gadgetParams 8 56 Base.Pasta.mds Base.Pasta.mdsInv Base.Pasta.roundConstants) x y = .ok (cs, L) ∧
      keygen cs L.ops (2 ^ 6) (Pallas.omega 6) Pallas.delta = .ok K ∧
      K.Shows fun g => ∀ i : Fin 3, g.advice i 0 = x i ∧ g.advice i 38 = y i := by
  constructor
  · obtain ⟨y, hy⟩ : ∃ y, Base.Pasta.hashFp false m = .ok y := ⟨_, C50_pasta_hash false (by norm_num) m⟩
    obtain ⟨cs, L, e, h⟩ := C99_pasta false (by norm_num) le_rfl m y
    obtain ⟨h1, h2⟩ := h 7 (by norm_num)
    obtain ⟨K, hK⟩ := h1.mpr (by simp)
    exact ⟨y, cs, L, K, e, hK, (h2 K hK).2.2 hy⟩
  · obtain ⟨cs, L, e, h⟩ := C99_pasta_permute false x _
    obtain ⟨h1, h2⟩ := h 6 (by norm_num)
    obtain ⟨K, hK⟩ := h1.mpr (by simp)
    exact ⟨_, cs, L, K, e, hK, (h2 K hK).2.2 ((C50_pasta_permutation false).1 x)⟩

/-- The key made without a witness on the 128 rows of the test, and the honest prover for any message. -/
example : ∃ cs L X K, hashCircuitValues (gadgetParams 8 56 Base.Pasta.mds Base.Pasta.mdsInv Base.Pasta.roundConstants)
      (⟨none, none⟩ : HashWitness Base.Pasta.Fp 3) = .ok (cs, L) ∧ KeyOf L X ∧
    keygen cs X.ops (2 ^ 7) (Pallas.omega 7) Pallas.delta = .ok K ∧ ∀ m : Fin 3 → Base.Pasta.Fp, ∃ y,
      Base.Pasta.hashFp false m = .ok y ∧ K.Shows fun g => (∀ i : Fin 3, g.advice i 0 = m i) ∧ g.advice 0 82 = y := by
  obtain ⟨cs, L, e, ⟨X, hX⟩, h⟩ := C99_witness 8 56 Base.Pasta.mds Base.Pasta.mdsInv Base.Pasta.roundConstants
    (by rw [Base.Pasta.roundConstants_length]) Base.Pasta.mds_mul_mdsInv (by norm_num) (by norm_num) (by norm_num)
    (by norm_num : 0 < 3) le_rfl ⟨none, none⟩
  have hr : hashRows 8 56 2 3 = 83 := by simp [hashRows, permRows]
  obtain ⟨h1, h2⟩ := h X hX (2 ^ 7) (Pallas.omega 7) Pallas.delta
  rw [hr] at h1
  obtain ⟨K, hK⟩ := h1.mpr (by norm_num)
  refine ⟨cs, L, X, K, e, hX, hK, fun m => ?_⟩
  obtain ⟨X', e', -⟩ := (C79_circuit _ _ m 0).2 _ _ e
  obtain ⟨-, -, ecs⟩ := hash_cs e'
  have hcols : (permCols cs.equality).length ≤ 7 := (permCols_length _).trans (by rw [ecs]; simp [Pow5.eqCols])
  obtain ⟨y, hy⟩ : ∃ y, Base.Pasta.hashFp false m = .ok y := ⟨_, C50_pasta_hash false (by norm_num) m⟩
  refine ⟨y, hy, ?_⟩
  have := (h2 K hK (Pallas.omega_primitive (by norm_num)) (Pallas.delta_names (by norm_num) (hcols.trans (by norm_num)))).2
    m y (by rw [pasta_native false]; exact hy)
  rw [hr] at this
  exact this

/-- The gadget in a circuit with a key, on 64 rows: the hash of two words, then another cell that must equal it.
This hash is also a run of the sponge. -/
example (a b y : Base.Pasta.Fp) : ∃ (c : Pow5.Config Base.Pasta.Fp 2) (cs' : CS Base.Pasta.Fp)
    (L : Layouter Base.Pasta.Fp) (out : ACell Base.Pasta.Fp) (L' : Layouter Base.Pasta.Fp)
    (post : List (Op Base.Pasta.Fp)) (K : Key Base.Pasta.Fp),
    Pow5.configureChecked (gadgetParams 8 56 Base.Pasta.mds Base.Pasta.mdsInv Base.Pasta.roundConstants) (testCols 2)
      ⟨4, 6, 0, [], [], [.fixed 3]⟩ = .ok (c, cs') ∧
    hashAll (gadgetParams 8 56 Base.Pasta.mds Base.Pasta.mdsInv Base.Pasta.roundConstants) c L []
      [fun _ => [⟨⟨.advice 0, 0⟩, a⟩, ⟨⟨.advice 1, 0⟩, b⟩]] = .ok ([out], L') ∧
    spongeRun (gadgetParams 8 56 Base.Pasta.mds Base.Pasta.mdsInv Base.Pasta.roundConstants) c
      (Base.DomainKind.constantLength 2).initialCapacity L [.message ⟨⟨.advice 0, 0⟩, a⟩, .message ⟨⟨.advice 1, 0⟩, b⟩] 1 =
        .ok ([out], L') ∧ post ≠ [] ∧
    keygen cs' (L'.ops ++ post) (2 ^ 6) (Pallas.omega 6) Pallas.delta = .ok K ∧
    (K.Proves fun g => Base.Pasta.hashFp false ![g.advice 0 0, g.advice 1 0] = .ok (g.cell out.cell)) ∧
    K.Proves fun g => g.cell out.cell = spongeOutput (Spec.poseidon (fun x => x ^ 5) (Matrix.of Base.Pasta.mds) 4 56
      fun r => Base.Pasta.roundConstants.getD r 0) (Base.DomainKind.constantLength 2).initialCapacity [g.advice 0 0, g.advice 1 0] 0 := by
  obtain ⟨S, hS⟩ : ∃ S, S = gadgetParams 8 56 Base.Pasta.mds Base.Pasta.mdsInv Base.Pasta.roundConstants := ⟨_, rfl⟩
  have hinv : Matrix.of S.mReg * Matrix.of S.mInv = 1 := by rw [hS]; exact Base.Pasta.mds_mul_mdsInv
  obtain ⟨cs, L₂, e, h⟩ := C99_pasta false (by norm_num : 0 < 2) (by norm_num) ![a, b] y
  obtain ⟨K, hK⟩ := (h 6 (by norm_num)).1.mpr (by simp)
  obtain ⟨-, ht, ecs⟩ := hash_cs e
  rw [← hS] at e ecs ⊢
  have hcfg : Pow5.configureChecked S (testCols 2) ⟨4, 6, 0, [], [], [.fixed 3]⟩ =
      .ok (Pow5.config S (testCols 2) 0, cs) := by
    unfold Pow5.configureChecked
    rw [if_pos (by rw [hS]; simp [gadgetParams]), Pow5.configure_eq, ecs]
    rfl
  obtain ⟨L₀, e₀, c₀, o₀, k₀, -⟩ := load_ok S 0 (by norm_num : 0 < 2) (by norm_num) ![a, b] (some 3)
  obtain ⟨x, L', log, e₁, hx, -⟩ := hash_ok S (testCols 2) 0 3 hinv (testCols_distinct 2) ht L₀ c₀
    [⟨⟨.advice 0, 0⟩, a⟩, ⟨⟨.advice 1, 0⟩, b⟩] (by simp)
  obtain ⟨L₃, e₂, o₂⟩ := output_ok S 0 L' x y
  have e₁' := (hashCells_get (S := S) (c := Pow5.config S (testCols 2) 0) (L := L₀) rfl
    (List.get [⟨⟨.advice 0, 0⟩, a⟩, ⟨⟨.advice 1, 0⟩, b⟩]) (fun i : Fin 2 => ⟨⟨.advice i, 0⟩, ![a, b] i⟩) (by
      intro i
      fin_cases i <;> rfl)).symm.trans e₁
  have hL₂ : L₂ = L₃ := by
    have hcf : hashConfigure S = .ok (Pow5.config S (testCols 2) 0, cs, 3) := by
      simp only [hashConfigure, columns_eq, CS.enableEquality]
      rw [show Pow5.configureChecked S (testCols 2) ⟨2 + 2, 2 * (2 + 1), 0, [], [],
        [] ++ [Col.fixed ((testCols 2).rcB 0)]⟩ = .ok (Pow5.config S (testCols 2) 0, cs) from hcfg]
      rfl
    simp only [hashCircuit, hcf, hashSynthesize, e₀, e₁', e₂, bind, Except.bind, pure, Except.pure, Except.ok.injEq,
      Prod.mk.injEq] at e
    exact e.2.symm
  subst hL₂
  rw [o₂] at hK
  have hrun : hashAll S (Pow5.config S (testCols 2) 0) L₀ [] [fun _ => [⟨⟨.advice 0, 0⟩, a⟩, ⟨⟨.advice 1, 0⟩, b⟩]] =
      .ok ([x], L') := by
    simp only [hashAll, e₁, bind, Except.bind, List.nil_append]
  have hlater : Later (testCols 2) 3 L' [.advice 0 (L'.colEnd (.advice 0)) y,
      .copy x.cell ⟨.advice 0, L'.colEnd (.advice 0)⟩] := by
    intro o ho k hk r hh
    simp only [List.mem_cons, List.not_mem_nil, or_false] at ho
    rcases ho with rfl | rfl
    · simp only [Op.Hits] at hh
      obtain ⟨rfl, rfl⟩ := hh
      exact le_rfl
    · exact hh.elim
  have hcols : (permCols cs.equality).length ≤ 7 := (permCols_length _).trans (by rw [ecs]; simp [Pow5.eqCols])
  have hδ : DistinctNames cs (2 ^ 6) (Pallas.omega 6) Pallas.delta :=
    Pallas.delta_names (by norm_num) (hcols.trans (by norm_num))
  have hrun' : spongeRun S (Pow5.config S (testCols 2) 0) (Base.DomainKind.constantLength 2).initialCapacity L₀
      [.message ⟨⟨.advice 0, 0⟩, a⟩, .message ⟨⟨.advice 1, 0⟩, b⟩] 1 = .ok ([x], L') := by
    have hpad : (Base.DomainKind.constantLength 2).padding 2 2 = .ok ([] : List Base.Pasta.Fp) := by
      simp [Base.DomainKind.padding, Base.DomainKind.padding.constPad]
    have e₁ : Gadget.hashCells S (Pow5.config S (testCols 2) 0) L₀
      (List.get [⟨⟨.advice 0, 0⟩, a⟩, ⟨⟨.advice 1, 0⟩, b⟩]) = .ok (x, L') := e₁
    unfold Gadget.hashCells Gadget.Hash.init Gadget.Hash.hash at e₁
    rw [show (Base.DomainKind.constantLength [(⟨⟨.advice 0, 0⟩, a⟩ : ACell Base.Pasta.Fp), ⟨⟨.advice 1, 0⟩, b⟩].length).padding
      2 [(⟨⟨.advice 0, 0⟩, a⟩ : ACell Base.Pasta.Fp), ⟨⟨.advice 1, 0⟩, b⟩].length = .ok ([] : List Base.Pasta.Fp) from hpad,
      List.ofFn_get] at e₁
    unfold spongeRun
    cases h1 : Gadget.Sponge.new (Pow5.config S (testCols 2) 0)
      ((Base.DomainKind.constantLength 2).initialCapacity : Base.Pasta.Fp) L₀ with
    | error e => exact absurd ((congrArg (· >>= _) h1).symm.trans e₁) (by intro h; cases h)
    | ok v1 =>
      have e₁ := (congrArg (· >>= _) h1).symm.trans e₁
      simp only [bind, Except.bind, Gadget.squeezeMany, pure, Except.pure, List.map_cons, List.map_nil,
        List.append_nil] at e₁ ⊢
      split at e₁
      · cases e₁
      · split at e₁
        · cases e₁
        · split at e₁
          · cases e₁
          · cases e₁
            rfl
  refine ⟨_, _, L₀, x, L', _, K, hcfg, hrun, hrun', List.cons_ne_nil _ _, hK, ?_, ?_⟩
  · rw [hS] at hcfg hrun
    have key := C99_gadget 8 56 Base.Pasta.mds Base.Pasta.mdsInv Base.Pasta.roundConstants
      (by rw [Base.Pasta.roundConstants_length]) Base.Pasta.mds_mul_mdsInv (testCols 2) (testCols_distinct 2) _ _ _ hcfg L₀
      3 c₀ (load_good (t := 2) (by norm_num) o₀ k₀) _ (by simp) hrun hlater (by simp) (fun p hp => hp) hK
      (Pallas.omega_primitive (by norm_num)) hδ
    refine key.mono fun g hg => ?_
    have := hg 0 _ x rfl rfl
    rw [← pasta_native false]
    exact this
  · rw [hS] at hcfg hrun'
    have key := C99_sponge 8 56 Base.Pasta.mds Base.Pasta.mdsInv Base.Pasta.roundConstants
      (by rw [Base.Pasta.roundConstants_length]) Base.Pasta.mds_mul_mdsInv (testCols 2) (testCols_distinct 2) _ _ _ hcfg L₀
      3 c₀ (load_good (t := 2) (by norm_num) o₀ k₀) _ _ (by simp) (by simp) 1 hrun' hlater (by simp) (fun p hp => hp) hK
      (Pallas.omega_primitive (by norm_num)) hδ
    refine key.mono fun g hg => ?_
    exact List.head_eq_of_cons_eq hg

open Base.Bn256 in
/-- The test of the Septidon chip has a key for every `k` from 3 to 28, and its honest prover shows the expected state. -/
example (k : ℕ) (h3 : 3 ≤ k) (h28 : k ≤ 28) : ∃ rc cs L K,
    Septidon.testCircuit mds rc ![0, 1, 2] Septidon.testExpect (2 ^ k - 6) = .ok (cs, L) ∧
      keygen cs L.ops (2 ^ k) (omega k) delta = .ok K ∧
      K.Shows fun g => ∀ i < (2 ^ k - 6) / 8, ∀ j : Fin 3, g.advice j (8 * i) = (![0, 1, 2] : Fin 3 → Fr) j ∧
        g.advice 12 (8 * i + 5 + j) = Septidon.testExpect j := by
  obtain ⟨rc, h1, -, hc, hp⟩ := Septidon.bn_table
  obtain ⟨rc', h1', h, -⟩ := C81_bn254
  have : rc' = rc := by
    have := h1'.symm.trans h1
    injection this
  subst this
  obtain ⟨cs, L, e, -⟩ := h k h3
  obtain ⟨a, b⟩ := C99_septidon mds (Septidon.table rc') hc _ _ _ cs L e k h28
  have h8 : 8 ≤ 2 ^ k := Nat.pow_le_pow_right (n := 2) (by norm_num) h3
  obtain ⟨K, hK⟩ := a.mpr ⟨h3, by omega⟩
  exact ⟨_, cs, L, K, e, hK, (b K hK).2.2⟩

end Props
