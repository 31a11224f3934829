import Verif.Base.GrainField
import Verif.Base.MdsLemmas
import Mathlib.Algebra.Field.ZMod

set_option linter.unusedSimpArgs false
set_option linter.unusedSectionVars false

/-!
# Properties of the constant generators: C14 to C19
-/

namespace Props
open Base Base.Grain

/-- Seed of a parameter set: every parameter is cut to the width of its field. -/
def seedOf (sbox n t rf rp : ℕ) : ℕ :=
  Spec.grainSeed (sbox % 2 ^ 4) (n % 2 ^ 12) (t % 2 ^ 12) (rf % 2 ^ 10) (rp % 2 ^ 10)

theorem new_rep' (sbox n t rf rp : ℕ) : ∃ g, Grain.new sbox n t rf rp = .ok g ∧
    Rep (Spec.lfsr (seedOf sbox n t rf rp)) g 240 := by
  obtain ⟨g, h1, h2⟩ := new_spec (sbox % 2 ^ 4) (n % 2 ^ 12) (t % 2 ^ 12) (rf % 2 ^ 10) (rp % 2 ^ 10)
    (Nat.mod_lt _ (by decide)) (Nat.mod_lt _ (by decide)) (Nat.mod_lt _ (by decide))
    (Nat.mod_lt _ (by decide)) (Nat.mod_lt _ (by decide))
  refine ⟨g, ?_, h2⟩
  unfold Grain.new at h1 ⊢
  rw [initialState_mod]; exact h1

/-- **C14.** For every parameter set `Grain::new` succeeds, and for every `n` the first `n` bits it
delivers are the first `n` bits of the self-shrunk reference sequence from position 240 (80 seed
bits, 160 discarded bits) on: some number `m` of bit pairs yields exactly them. For parameters that fit their fields, `seedOf` is `Spec.grainSeed`. -/
theorem C14_grain_stream (sbox n t rf rp : ℕ) :
    (∃ g, Grain.new sbox n t rf rp = .ok g ∧ ∀ count, ∃ bits g' m,
      takeBits count g = .ok (bits, g') ∧ bits.length = count ∧
      bits = Spec.shrink (Spec.lfsr (seedOf sbox n t rf rp)) 240 m) ∧
    (sbox < 2 ^ 4 → n < 2 ^ 12 → t < 2 ^ 12 → rf < 2 ^ 10 → rp < 2 ^ 10 →
      seedOf sbox n t rf rp = Spec.grainSeed sbox n t rf rp) := by
  constructor
  · obtain ⟨g, h1, h2⟩ := new_rep' sbox n t rf rp
    refine ⟨g, h1, fun count => ?_⟩
    obtain ⟨l, g', m, e, h3, h4, -⟩ := takeBits_spec _ (lfsr_rec _) (seed_79 _ _ _ _ _) count g 240 h2
    exact ⟨l, g', m, e, h4, h3⟩
  · intro h1 h2 h3 h4 h5
    unfold seedOf
    rw [Nat.mod_eq_of_lt h1, Nat.mod_eq_of_lt h2, Nat.mod_eq_of_lt h3, Nat.mod_eq_of_lt h4,
      Nat.mod_eq_of_lt h5]

/-- The parameters of the BN254 instance fit, so C14 speaks of the reference seed. -/
example : seedOf 0 254 3 8 57 = Spec.grainSeed 0 254 3 8 57 :=
  (C14_grain_stream 0 254 3 8 57).2 (by decide) (by decide) (by decide) (by decide) (by decide)

/-- **C15.** From every state reached from `Grain::new` by drawing bits, one more draw succeeds, and
the skipping loop stops within 120 rounds (240 register bits): any larger iteration budget gives the
same result. -/
theorem C15_grain_next_terminates (sbox n t rf rp count : ℕ) (g0 g : Grain) (bits : List Bool)
    (h0 : Grain.new sbox n t rf rp = .ok g0) (h : takeBits count g0 = .ok (bits, g)) :
    ∃ b g', ∀ fuel, 120 ≤ fuel → nextLoop fuel g = .ok (b, g') := by
  obtain ⟨g1, h1, h2⟩ := new_rep' sbox n t rf rp
  obtain rfl : g0 = g1 := by rw [h0] at h1; cases h1; rfl
  obtain ⟨l, g', m, e, -, -, hr⟩ := takeBits_spec _ (lfsr_rec _) (seed_79 _ _ _ _ _) count g0 240 h2
  rw [h] at e
  cases e
  obtain ⟨k, g2, -, -, -, h3, -⟩ := next_spec _ (lfsr_rec _) (seed_79 _ _ _ _ _) _ _ hr
  exact ⟨_, g2, h3⟩

/-- The hypotheses of C15 are met for every parameter set and every number of bits. -/
example (count : ℕ) : ∃ g0 g bits, Grain.new 0 254 3 8 57 = .ok g0 ∧
    takeBits count g0 = .ok (bits, g) := by
  obtain ⟨⟨g, h1, h2⟩, -⟩ := C14_grain_stream 0 254 3 8 57
  obtain ⟨bits, g', m, e, -⟩ := h2 count
  exact ⟨g, g', bits, h1, e⟩

/-- **C16.** The initial register state is a function of the parameters that is injective on
in-range parameters, and its last thirty bits are ones. -/
theorem C16_seed_injective (sbox n t rf rp sbox' n' t' rf' rp' : ℕ)
    (h1 : sbox < 2 ^ 4) (h2 : n < 2 ^ 12) (h3 : t < 2 ^ 12) (h4 : rf < 2 ^ 10) (h5 : rp < 2 ^ 10)
    (h1' : sbox' < 2 ^ 4) (h2' : n' < 2 ^ 12) (h3' : t' < 2 ^ 12) (h4' : rf' < 2 ^ 10)
    (h5' : rp' < 2 ^ 10) :
    (∃ st, initialState sbox n t rf rp = .ok st ∧ ∀ j : Fin 80, 50 ≤ j.val → st j = true) ∧
    (initialState sbox n t rf rp = initialState sbox' n' t' rf' rp' →
      sbox = sbox' ∧ n = n' ∧ t = t' ∧ rf = rf' ∧ rp = rp') := by
  obtain ⟨st, e, f⟩ := initialState_spec sbox n t rf rp h1 h2 h3 h4 h5
  obtain ⟨st', e', f'⟩ := initialState_spec sbox' n' t' rf' rp' h1' h2' h3' h4' h5'
  refine ⟨⟨st, e, fun j hj => ?_⟩, fun heq => ?_⟩
  · rw [f j, Spec.grainSeed, testBit_field _ _ 30 _ (by norm_num), if_pos (by omega),
      Nat.testBit_two_pow_sub_one]
    simp; omega
  · rw [e, e'] at heq
    cases heq
    have hs : Spec.grainSeed sbox n t rf rp = Spec.grainSeed sbox' n' t' rf' rp' := by
      apply Nat.eq_of_testBit_eq
      intro i
      by_cases hi : i < 80
      · have := f ⟨79 - i, by omega⟩
        rw [f' ⟨79 - i, by omega⟩] at this
        simp only [show 79 - (79 - i) = i by omega] at this
        exact this.symm
      · have l1 : Spec.grainSeed sbox n t rf rp < 2 ^ 80 := by
          unfold Spec.grainSeed; norm_num at *; omega
        have l2 : Spec.grainSeed sbox' n' t' rf' rp' < 2 ^ 80 := by
          unfold Spec.grainSeed; norm_num at *; omega
        have : (2 : ℕ) ^ 80 ≤ 2 ^ i := Nat.pow_le_pow_right (by omega) (by omega)
        rw [Nat.testBit_lt_two_pow (by omega), Nat.testBit_lt_two_pow (by omega)]
    unfold Spec.grainSeed at hs
    norm_num at *
    omega

/-- Distinct in-range parameter sets exist (8 + 56 and 8 + 57 rounds), with distinct states. -/
example : initialState 0 254 3 8 56 ≠ initialState 0 254 3 8 57 := fun h =>
  absurd ((C16_seed_injective 0 254 3 8 56 0 254 3 8 57 (by decide) (by decide) (by decide) (by decide)
    (by decide) (by decide) (by decide) (by decide) (by decide) (by decide)).2 h).2.2.2.2 (by decide)

/-- The range hypotheses of C16 are needed: a width of `3 + 4096` is silently taken as 3. -/
theorem C16_out_of_range_collision : initialState 0 254 (3 + 4096) 8 57 = initialState 0 254 3 8 57 := by
  rw [initialState_mod, initialState_mod 0 254 3 8 57]
  norm_num

/-- **C17.** From any generator state whose next groups of `numBits` bits are in `l`:
the first group whose value (most significant bit first) is below `p` is returned, and exactly the groups up to it are
consumed; the variant without rejection returns the next group modulo `p`. -/
theorem C17_field_elements (p numBits : ℕ) (hn : numBits ≤ 256) (g g' : Grain) (l : List Bool) :
    (∀ k fuel, k < fuel → takeBits ((k + 1) * numBits) g = .ok (l, g') →
      (∀ j, j < k → p ≤ Spec.ofBitsMSB ((l.drop (j * numBits)).take numBits)) →
      Spec.ofBitsMSB ((l.drop (k * numBits)).take numBits) < p →
      nextFieldElement p numBits fuel g =
        .ok ((Spec.ofBitsMSB ((l.drop (k * numBits)).take numBits) : ZMod p), g')) ∧
    (takeBits numBits g = .ok (l, g') →
      nextFieldElementWithoutRejection p numBits g = .ok ((Spec.ofBitsMSB l : ZMod p), g')) := by
  refine ⟨fun k fuel hf ht h1 h2 => nextFieldElement_spec p numBits hn k fuel g g' l hf ht h1 h2,
    fun ht => ?_⟩
  obtain ⟨v, e, -, -, hv⟩ := writeBits_spec numBits 64 l (takeBits_length _ _ _ _ ht) (by omega)
  simp only [nextFieldElementWithoutRejection, ht, ok_bind, e, hv]
  rfl

/-- For every parameter set, modulus and position in the stream, the draw without rejection succeeds. -/
theorem C17_draw_total (sbox n t rf rp count p numBits : ℕ) (hn : numBits ≤ 256) (g0 g : Grain)
    (bits : List Bool) (h0 : Grain.new sbox n t rf rp = .ok g0)
    (h : takeBits count g0 = .ok (bits, g)) :
    ∃ x g', nextFieldElementWithoutRejection p numBits g = .ok (x, g') := by
  obtain ⟨g1, h1, h2⟩ := new_rep' sbox n t rf rp
  obtain rfl : g0 = g1 := by rw [h0] at h1; cases h1; rfl
  obtain ⟨l, g', m, e, -, -, hr⟩ := takeBits_spec _ (lfsr_rec _) (seed_79 _ _ _ _ _) count g0 240 h2
  rw [h] at e
  cases e
  obtain ⟨l, g', m, e, -, -, hr⟩ := takeBits_spec _ (lfsr_rec _) (seed_79 _ _ _ _ _) numBits g _ hr
  exact ⟨_, g', (C17_field_elements p numBits hn g g' l).2 e⟩

/-! ### The MDS generator -/

open Base.MdsGen

variable {F G : Type} [Field F] [DecidableEq F]

/-- **C18.** Whenever `generate_mds` returns, for any generator `draw`, any total order used for sorting, any width and
any `select`: the values come from a batch of `2 * T` consecutive draws without repetition, preceded by
exactly `select` such batches; `mds` is the Cauchy matrix of the two halves of the batch, no sum of which vanishes; the
second matrix is its two-sided inverse; every square submatrix of `mds` is invertible. -/
theorem C18_generate_mds (draw : G → Except Panic (F × G)) (le : F → F → Bool)
    (total : ∀ a b, le a b || le b a) (trans : ∀ a b c, le a b → le b c → le a c)
    (anti : ∀ a b, le a b → le b a → a = b) (T fuel sel : ℕ) (g g' : G)
    (mds inv : Fin T → Fin T → F) (h : generateMds draw le T fuel sel g = .ok (mds, inv, g')) :
    (∃ k l, drawN draw ((k + 1) * (2 * T)) g = .ok (l, g') ∧
      ((List.range k).filter fun j => ((l.drop (j * (2 * T))).take (2 * T)).Nodup).length = sel ∧
      ((l.drop (k * (2 * T))).take (2 * T)).Nodup ∧
      ∀ i j : Fin T, l.getD (k * (2 * T) + i) 0 + l.getD (k * (2 * T) + T + j) 0 ≠ 0 ∧
        mds i j = (l.getD (k * (2 * T) + i) 0 + l.getD (k * (2 * T) + T + j) 0)⁻¹) ∧
    Matrix.of mds * Matrix.of inv = 1 ∧ Matrix.of inv * Matrix.of mds = 1 ∧
    ∀ (s : ℕ) (r c : Fin s → Fin T), Function.Injective r → Function.Injective c →
      ((Matrix.of mds).submatrix r c).det ≠ 0 := by
  unfold generateMds at h
  cases hs : select draw le T fuel sel g with
  | error e => rw [hs, err_bind'] at h; cases h
  | ok v =>
    obtain ⟨xs, ys, g1, m⟩ := v
    rw [hs, ok_bind'] at h
    simp only at h
    obtain ⟨k, l, h1, h2, h3, h4, h5, h6⟩ := select_ok le total trans anti draw T fuel sel g _ _ _ _ hs
    have hlen := drawN_length draw _ _ _ _ h1
    have hcl : (chunk l (2 * T) k).length = 2 * T := by
      unfold chunk
      rw [List.length_take, List.length_drop, hlen, show (k + 1) * (2 * T) = k * (2 * T) + 2 * T by ring]
      omega
    obtain ⟨hxi, hyi⟩ := halves T _ hcl h3
    rw [← h4] at hxi
    rw [← h5] at hyi
    have hx : xs.length = T := by rw [h4, List.length_take, hcl]; omega
    have hy : ys.length = T := by rw [h5, List.length_drop, hcl]; omega
    rw [inverse_ok T xs ys hx hy hxi hyi, ok_bind'] at h
    simp only [pure, Except.pure, Except.ok.injEq, Prod.mk.injEq] at h
    obtain ⟨rfl, rfl, rfl⟩ := h
    unfold cauchy at h6
    split at h6
    · rename_i hne
      simp only [Except.ok.injEq] at h6
      subst h6
      have hyn : Function.Injective (fun i : Fin T => -ys.getD i 0) := by
        intro i j hij
        simp only [neg_inj] at hij
        exact hyi hij
      have hab : ∀ i j : Fin T, (fun i : Fin T => xs.getD i 0) i ≠ (fun i : Fin T => -ys.getD i 0) j := by
        intro i j hc
        apply hne i j
        simp only at hc
        rw [hc]; ring
      have hmul := cauchy_mul_inv _ _ hxi hyn hab
      simp only [sub_neg_eq_add] at hmul
      refine ⟨⟨k, l, h1, h2, h3, ?_⟩, ?_, ?_, ?_⟩
      · intro i j
        have ex : xs.getD i 0 = l.getD (k * (2 * T) + i) 0 := by
          rw [h4]; unfold chunk
          have : i.val < 2 * T := by omega
          simp [List.getD_eq_getElem?_getD, List.getElem?_take, this, List.getElem?_drop]
        have ey : ys.getD j 0 = l.getD (k * (2 * T) + T + j) 0 := by
          rw [h5]; unfold chunk
          have : T + j.val < 2 * T := by omega
          simp [List.getD_eq_getElem?_getD, List.getElem?_take, this, List.getElem?_drop, Nat.add_assoc]
        have := hne i j
        rw [ex, ey] at this
        exact ⟨this, by simp only [ex, ey]⟩
      · simp only [sub_neg_eq_add]; exact hmul
      · simp only [sub_neg_eq_add]; exact mul_eq_one_comm.mp hmul
      · intro s r c hr hc
        have := cauchy_isUnit (fun i => xs.getD (r i) 0) (fun j => -ys.getD (c j) 0)
          (fun i j hij => hr (hxi hij)) (fun i j hij => hc (hyn hij)) (fun i j => hab (r i) (c j))
        simp only [sub_neg_eq_add] at this
        exact this
    · cases h6

/-- **C18, panics.** The only panic of `generate_mds` itself is a vanishing sum `x_i + y_j` of an accepted batch;
otherwise the loop budget of the model ran out or the generator panicked in a state it had reached. -/
theorem C18_generate_mds_panics (draw : G → Except Panic (F × G)) (le : F → F → Bool)
    (total : ∀ a b, le a b || le b a) (trans : ∀ a b c, le a b → le b c → le a c)
    (anti : ∀ a b, le a b → le b a → a = b) (T fuel sel : ℕ) (g : G) (e : Panic)
    (h : generateMds draw le T fuel sel g = .error e) :
    (e = .zeroSum ∧ ∃ k l g', drawN draw ((k + 1) * (2 * T)) g = .ok (l, g') ∧
      ((l.drop (k * (2 * T))).take (2 * T)).Nodup ∧
      ∃ i j : Fin T, l.getD (k * (2 * T) + i) 0 + l.getD (k * (2 * T) + T + j) 0 = 0) ∨
    e = .diverge ∨ ∃ n l g', drawN draw n g = .ok (l, g') ∧ draw g' = .error e := by
  unfold generateMds at h
  cases hs : select draw le T fuel sel g with
  | ok v =>
    exfalso
    obtain ⟨xs, ys, g1, m⟩ := v
    rw [hs, ok_bind'] at h
    simp only at h
    obtain ⟨k, l, h1, h2, h3, h4, h5, h6⟩ := select_ok le total trans anti draw T fuel sel g _ _ _ _ hs
    have hlen := drawN_length draw _ _ _ _ h1
    have hcl : (chunk l (2 * T) k).length = 2 * T := by
      unfold chunk
      rw [List.length_take, List.length_drop, hlen, show (k + 1) * (2 * T) = k * (2 * T) + 2 * T by ring]
      omega
    obtain ⟨hxi, hyi⟩ := halves T _ hcl h3
    rw [← h4] at hxi
    rw [← h5] at hyi
    rw [inverse_ok T xs ys (by rw [h4, List.length_take, hcl]; omega)
      (by rw [h5, List.length_drop, hcl]; omega) hxi hyi, ok_bind'] at h
    cases h
  | error e' =>
    rw [hs, err_bind'] at h
    cases h
    -- follow the outer loop
    have key : ∀ (sel : ℕ) (g : G), select draw le T fuel sel g = .error e →
        (e = .zeroSum ∧ ∃ k l g', drawN draw ((k + 1) * (2 * T)) g = .ok (l, g') ∧
          (chunk l (2 * T) k).Nodup ∧ ∃ i j : Fin T,
            ((chunk l (2 * T) k).take T).getD i 0 + ((chunk l (2 * T) k).drop T).getD j 0 = 0) ∨
        e = .diverge ∨ ∃ g', Reached draw g g' ∧ draw g' = .error e := by
      intro sel
      induction sel with
      | zero =>
        intro g h
        simp only [select] at h
        cases hs : sample draw le T fuel g with
        | error e' =>
          rw [hs, err_bind'] at h; cases h
          exact Or.inr (sample_error le draw T fuel g _ hs)
        | ok v =>
          obtain ⟨a, b, c⟩ := v
          rw [hs, ok_bind'] at h
          simp only at h
          obtain ⟨k, l, h1, h2, h3, h4, h5⟩ := sample_ok le total trans anti draw T fuel g _ _ _ hs
          unfold cauchy at h
          split at h
          · cases h
          · rename_i hne
            rw [err_bind'] at h
            cases h
            push Not at hne
            obtain ⟨i, j, hij⟩ := hne
            exact Or.inl ⟨rfl, k, l, c, h1, h3, i, j, by rw [← h4, ← h5]; exact hij⟩
      | succ sel ih =>
        intro g h
        simp only [select] at h
        cases hs : sample draw le T fuel g with
        | error e' =>
          rw [hs, err_bind'] at h; cases h
          exact Or.inr (sample_error le draw T fuel g _ hs)
        | ok v =>
          obtain ⟨a, b, c⟩ := v
          rw [hs, ok_bind'] at h
          simp only at h
          obtain ⟨k1, l1, p1, -, -, -, -⟩ := sample_ok le total trans anti draw T fuel g _ _ _ hs
          rcases ih c h with ⟨h0, k, l, g', h1, h2, h3⟩ | h0
          · have hl1 := drawN_length draw _ _ _ _ p1
            refine Or.inl ⟨h0, (k1 + 1) + k, l1 ++ l, g', ?_, ?_⟩
            · rw [show (k1 + 1 + k + 1) * (2 * T) = (k1 + 1) * (2 * T) + (k + 1) * (2 * T) by ring]
              exact drawN_append draw _ _ _ _ _ _ _ p1 h1
            · rw [chunk_append_right _ _ _ _ _ hl1]
              exact ⟨h2, h3⟩
          · rcases h0 with h0 | ⟨g', h1, h2⟩
            · exact Or.inr (Or.inl h0)
            · exact Or.inr (Or.inr ⟨g', h1.step p1, h2⟩)
    rcases key sel g hs with ⟨h0, k, l, g', h1, h2, i, j, h3⟩ | h0 | ⟨g', ⟨n, l, h1⟩, h2⟩
    · refine Or.inl ⟨h0, k, l, g', h1, h2, i, j, ?_⟩
      unfold chunk at h3
      have c1 : i.val < 2 * T := by omega
      have c2 : T + j.val < 2 * T := by omega
      simpa [List.getD_eq_getElem?_getD, List.getElem?_take, c1, c2, List.getElem?_drop, Nat.add_assoc] using h3
    · exact Or.inr (Or.inl h0)
    · exact Or.inr (Or.inr ⟨n, l, g', h1, h2⟩)

/-- **C19.** The length comparison after sorting and deduplicating accepts a batch exactly when its
values are pairwise distinct, whatever total order is used for sorting. -/
theorem C19_duplicate_detection (le : F → F → Bool) (total : ∀ a b, le a b || le b a)
    (trans : ∀ a b c, le a b → le b c → le a c) (anti : ∀ a b, le a b → le b a → a = b)
    (l : List F) : accepts le l = true ↔ l.Pairwise (· ≠ ·) :=
  accepts_iff le total trans anti l

section Examples

instance : Fact (Nat.Prime 11) := ⟨by decide⟩

/-- Generator that replays a list. -/
def replay : List (ZMod 11) → Except Panic (ZMod 11 × List (ZMod 11))
  | [] => .error .index
  | x :: l => .ok (x, l)

def le11 (a b : ZMod 11) : Bool := a.val ≤ b.val

/-- A run to which C18 applies: the first batch has a repetition, the second is used. -/
example : (generateMds replay le11 2 5 0 [1, 1, 2, 3, 1, 2, 3, 4, 9]).toOption.map (·.2.2) = some [9] := by
  decide +kernel

/-- The order used is total, transitive and antisymmetric. -/
example : (∀ a b, le11 a b || le11 b a) ∧ (∀ a b c, le11 a b → le11 b c → le11 a c) ∧
    (∀ a b, le11 a b → le11 b a → a = b) := by
  decide +kernel

/-- The panic of C18 does occur: 3 + 8 = 0. -/
example : generateMds replay le11 1 5 0 [3, 8] = .error .zeroSum := by
  rfl

example : accepts le11 [5, 3, 5] = false ∧ accepts le11 [5, 3, 4] = true := by decide +kernel

end Examples

end Props
