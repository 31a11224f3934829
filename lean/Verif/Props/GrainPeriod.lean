import Verif.Props.Grain
import Verif.Base.GrainPeriod

/-!
# C70: the period of the Grain generator, and termination of the rejection loop
-/

namespace Props
open Base Base.Grain

private theorem seed_rec (sbox n t rf rp : ℕ) : Rec (Spec.lfsr (seedOf sbox n t rf rp)) ∧
    ∃ k, Spec.lfsr (seedOf sbox n t rf rp) k = true :=
  ⟨lfsr_rec _, 79, seed_79 _ _ _ _ _⟩

private theorem reached (sbox n t rf rp count : ℕ) (g0 g : Grain) (bits : List Bool)
    (h0 : Grain.new sbox n t rf rp = .ok g0) (h : takeBits count g0 = .ok (bits, g)) :
    ∃ pos, Rep (Spec.lfsr (seedOf sbox n t rf rp)) g pos := by
  obtain ⟨g1, h1, h2⟩ := new_rep' sbox n t rf rp
  obtain rfl : g0 = g1 := by rw [h0] at h1; cases h1; rfl
  obtain ⟨l, g', m, e, -, -, hr⟩ := takeBits_spec _ (lfsr_rec _) (seed_79 _ _ _ _ _) count g0 240 h2
  rw [h] at e
  cases e
  exact ⟨_, hr⟩

/-- **C70.** The register sequence of every parameter set has least period `2^80 - 1`: it repeats after `d` bits exactly
if `2^80 - 1` divides `d`. Every nonzero pattern of 80 bits is the register content exactly once in a period, and
the zero pattern never is. -/
theorem C70_lfsr_period (sbox n t rf rp : ℕ) :
    (∀ d, (∀ k, Spec.lfsr (seedOf sbox n t rf rp) (k + d) = Spec.lfsr (seedOf sbox n t rf rp) k) ↔
      2 ^ 80 - 1 ∣ d) ∧
    (∀ w : Fin 80 → Bool, (∃ i, w i = true) → ∃! k, k < 2 ^ 80 - 1 ∧
      ∀ i : Fin 80, Spec.lfsr (seedOf sbox n t rf rp) (k + i.val) = w i) ∧
    (∀ k, ∃ i, i < 80 ∧ Spec.lfsr (seedOf sbox n t rf rp) (k + i) = true) := by
  obtain ⟨hs, hne⟩ := seed_rec sbox n t rf rp
  refine ⟨period_iff _ hs hne, fun w hw => ?_, fun k => ?_⟩
  · have hw' : w ≠ fun _ => false := by
      rintro rfl
      obtain ⟨i, hi⟩ := hw
      cases hi
    have hb := windows_bijective _ hs hne 0 1 (Nat.coprime_one_right _)
    obtain ⟨k, hk⟩ := hb.2 ⟨w, hw'⟩
    have hk' := congrArg Subtype.val hk
    simp only [Nat.zero_add, Nat.one_mul] at hk'
    refine ⟨k.val, ⟨k.isLt, fun i => congrFun hk' i⟩, ?_⟩
    rintro j ⟨hj, hji⟩
    have : (⟨j, hj⟩ : Fin fullPeriod) = k := by
      apply hb.1
      apply Subtype.ext
      simp only [Nat.zero_add, Nat.one_mul]
      rw [hk']
      exact funext hji
    rw [← this]
  · by_contra hc
    push Not at hc
    exact window_ne _ hs hne k (funext fun i => by simpa [window] using hc i.val i.isLt)

/-- The two parameter sets of `C16`, with 56 and 57 partial rounds, have different seeds; their register sequences
are nonzero and run through the same cycle (`C70_shift`). -/
example : seedOf 0 254 3 8 56 ≠ seedOf 0 254 3 8 57 := by
  norm_num [seedOf, Spec.grainSeed]

/-- **C70, one cycle.** The register sequences of any two parameter sets are shifts of one another: parameter sets only
choose where on one common cycle the generator starts. -/
theorem C70_shift (sbox n t rf rp sbox' n' t' rf' rp' : ℕ) :
    ∃ c, c < 2 ^ 80 - 1 ∧ ∀ k, Spec.lfsr (seedOf sbox' n' t' rf' rp') k =
      Spec.lfsr (seedOf sbox n t rf rp) (c + k) := by
  obtain ⟨hs', hne'⟩ := seed_rec sbox' n' t' rf' rp'
  obtain ⟨hs, hne⟩ := seed_rec sbox n t rf rp
  obtain ⟨c, hc⟩ := (windows_bijective _ hs hne 0 1 (Nat.coprime_one_right _)).2
    ⟨window _ 0, window_ne _ hs' hne' 0⟩
  have h := congrArg Subtype.val hc
  simp only [Nat.zero_add, Nat.one_mul] at h
  refine ⟨c.val, c.isLt, fun k => ?_⟩
  have := window_ext _ _ hs hs' _ _ h k
  rw [this, Nat.zero_add]

private theorem shrink_prefix (b : ℕ → Bool) (pos m1 m2 : ℕ) (h : m1 ≤ m2) :
    Spec.shrink b pos m1 <+: Spec.shrink b pos m2 := by
  obtain ⟨d, rfl⟩ := Nat.exists_eq_add_of_le h
  rw [shrink_split]
  exact List.prefix_append _ _

private theorem shrink_same (b : ℕ → Bool) (pos m1 m2 : ℕ)
    (h : (Spec.shrink b pos m1).length = (Spec.shrink b pos m2).length) :
    Spec.shrink b pos m1 = Spec.shrink b pos m2 := by
  rcases Nat.le_total m1 m2 with h' | h'
  · exact (shrink_prefix b pos _ _ h').eq_of_length h
  · exact ((shrink_prefix b pos _ _ h').eq_of_length h.symm).symm

private theorem shrink_count (b : ℕ → Bool) (pos m : ℕ) : (Spec.shrink b pos m).count true =
    Nat.count (fun i => b (pos + 2 * i) = true ∧ b (pos + 2 * i + 1) = true) m := by
  induction m with
  | zero => simp [Spec.shrink]
  | succ m ih =>
    rw [shrink_split, List.count_append, ih, Nat.count_succ]
    congr 1
    cases h1 : b (pos + 2 * m) <;> cases h2 : b (pos + 2 * m + 1) <;> simp [Spec.shrink, h1, h2]

/-- **C70, output.** From every state of the generator (after any number of bits drawn) `2^79` further bits can be drawn;
exactly half of them are ones, and after them the output repeats: any number of bits drawn next are the bits drawn
from the earlier state. -/
theorem C70_output_period (sbox n t rf rp count : ℕ) (g0 g : Grain) (bits : List Bool)
    (h0 : Grain.new sbox n t rf rp = .ok g0) (h : takeBits count g0 = .ok (bits, g)) :
    ∃ l g', takeBits (2 ^ 79) g = .ok (l, g') ∧ l.count true = 2 ^ 78 ∧ l.count false = 2 ^ 78 ∧
      ∀ m, ∃ l' g1 g2, takeBits m g = .ok (l', g1) ∧ takeBits m g' = .ok (l', g2) := by
  obtain ⟨pos, hr⟩ := reached sbox n t rf rp count g0 g bits h0 h
  obtain ⟨hs, hne⟩ := seed_rec sbox n t rf rp
  have h79 : Spec.lfsr (seedOf sbox n t rf rp) 79 = true := seed_79 _ _ _ _ _
  generalize Spec.lfsr (seedOf sbox n t rf rp) = b at *
  obtain ⟨l, g', M, e, hl, hlen, hr'⟩ := takeBits_spec b hs h79 (2 ^ 79) g pos hr
  have hN : (Spec.shrink b pos fullPeriod).length = 2 ^ 79 := by rw [shrink_length, kept_period b hs hne]
  have hlN : l = Spec.shrink b pos fullPeriod := by
    rw [hl]; exact shrink_same _ _ _ _ (by rw [← hl, hlen, hN])
  have hct : l.count true = 2 ^ 78 := by
    rw [hlN, shrink_count, ← card_first_two true true,
      ← count_windows b hs hne pos 2 fullPeriod_odd (fun w => w 0 = true ∧ w 1 = true) (by simp)]
    rfl
  refine ⟨l, g', e, hct, ?_, fun m => ?_⟩
  · have h1 : l.count true + l.count false = l.length := by
      clear * -
      induction l with
      | nil => rfl
      | cons a l ih => cases a <;> simp <;> omega
    rw [hct, hlen] at h1
    norm_num at h1 ⊢
    omega
  · obtain ⟨l0, g1, m0, e0, hl0, hlen0, -⟩ := takeBits_spec b hs h79 m g pos hr
    obtain ⟨l2, g2, m2, e2, hl2, hlen2, -⟩ := takeBits_spec b hs h79 m g' _ hr'
    have heq : Spec.shrink b pos (fullPeriod + m0) = Spec.shrink b pos (M + m2) := by
      apply shrink_same
      rw [shrink_split, shrink_split, List.length_append, List.length_append, ← hl2, ← hl, hN, hlen, hlen2,
        shrink_length]
      refine congrArg (2 ^ 79 + ·) ?_
      rw [← hlen0, hl0, shrink_length]
      apply kept_congr
      intro i _
      rw [show pos + 2 * fullPeriod + i = pos + i + fullPeriod * 2 by ring]
      exact (period_iff b hs hne _).mpr ⟨2, rfl⟩ _
    rw [shrink_split, shrink_split, ← hl, ← hlN, ← hl2] at heq
    have h3 := List.append_cancel_left heq
    have h4 : Spec.shrink b (pos + 2 * fullPeriod) m0 = l0 := by
      rw [hl0]
      unfold Spec.shrink
      have hp : ∀ k, b (pos + 2 * fullPeriod + k) = b (pos + k) := fun k => by
        rw [show pos + 2 * fullPeriod + k = pos + k + fullPeriod * 2 by ring]
        exact (period_iff b hs hne _).mpr ⟨2, rfl⟩ _
      simp only [hp, Nat.add_assoc (pos + 2 * fullPeriod) _ 1, Nat.add_assoc pos _ 1]
    rw [h4] at h3
    exact ⟨l0, g1, g2, e0, h3 ▸ e2⟩

/-- **C70, termination.** `next_field_element` always returns: for every parameter set, after any number of bits drawn,
for every field of `n` bits (`2^(n-1) ≤ p`) with a 32-byte representation, the rejection loop stops after finitely many
groups; a larger iteration budget gives the same result. -/
theorem C70_next_field_element_terminates (sbox n' t rf rp count p n : ℕ) (hn1 : 1 ≤ n) (hn : n ≤ 256)
    (hp : 2 ^ (n - 1) ≤ p) (g0 g : Grain) (bits : List Bool)
    (h0 : Grain.new sbox n' t rf rp = .ok g0) (h : takeBits count g0 = .ok (bits, g)) :
    ∃ k x g', ∀ fuel, k < fuel → nextFieldElement p n fuel g = .ok (x, g') := by
  obtain ⟨pos, hr⟩ := reached sbox n' t rf rp count g0 g bits h0 h
  obtain ⟨k, x, g', l, -, hx⟩ := nextFieldElement_total _ (lfsr_rec _) (seed_79 _ _ _ _ _) g pos hr p n hn1 hn hp
  exact ⟨k, x, g', hx⟩

/-- The hypotheses hold for the scalar field of BN254 at every position of its stream. -/
example (count : ℕ) : ∃ g0 g bits k x g', Grain.new 0 254 3 8 57 = .ok g0 ∧ takeBits count g0 = .ok (bits, g) ∧
    ∀ fuel, k < fuel → nextFieldElement
      21888242871839275222246405745257275088548364400416034343698204186575808495617 254 fuel g = .ok (x, g') := by
  obtain ⟨⟨g, h1, h2⟩, -⟩ := C14_grain_stream 0 254 3 8 57
  obtain ⟨bits, g', m, e, -⟩ := h2 count
  obtain ⟨k, x, g2, hk⟩ := C70_next_field_element_terminates 0 254 3 8 57 count
    21888242871839275222246405745257275088548364400416034343698204186575808495617 254 (by norm_num) (by norm_num)
    (by norm_num) g g' bits h1 e
  exact ⟨g, g', bits, k, x, g2, h1, e, hk⟩

/-- **C70, round constants.** The round constant loop of `Spec::constants` always returns, for every width `T` and
number of rounds. -/
theorem C70_constants_terminate (sbox n' t rf rp p n T rounds : ℕ) (hn1 : 1 ≤ n) (hn : n ≤ 256)
    (hp : 2 ^ (n - 1) ≤ p) (g : Grain) (h0 : Grain.new sbox n' t rf rp = .ok g) :
    ∃ k rows g', ∀ fuel, k < fuel → constantRows (nextFieldElement p n fuel) T rounds g = .ok (rows, g') := by
  obtain ⟨g1, h1, h2⟩ := new_rep' sbox n' t rf rp
  obtain rfl : g = g1 := by rw [h0] at h1; cases h1; rfl
  have hs : Rec (Spec.lfsr (seedOf sbox n' t rf rp)) := lfsr_rec _
  have h79 : Spec.lfsr (seedOf sbox n' t rf rp) 79 = true := seed_79 _ _ _ _ _
  generalize Spec.lfsr (seedOf sbox n' t rf rp) = b at *
  have draws : ∀ m pos g, Rep b g pos → ∃ k xs g' pos', Rep b g' pos' ∧
      ∀ fuel, k < fuel → MdsGen.drawN (nextFieldElement p n fuel) m g = .ok (xs, g') := by
    intro m
    induction m with
    | zero => intro pos g hr; exact ⟨0, [], g, pos, hr, fun _ _ => rfl⟩
    | succ m ih =>
      intro pos g hr
      obtain ⟨k, x, g', l, hl, hx⟩ := nextFieldElement_total b hs h79 g pos hr p n hn1 hn hp
      obtain ⟨l', g'', m', e, -, -, hr'⟩ := takeBits_spec b hs h79 ((k + 1) * n) g pos hr
      rw [hl] at e
      cases e
      obtain ⟨k2, xs, g2, pos2, hr2, hx2⟩ := ih _ _ hr'
      refine ⟨max k k2, x :: xs, g2, pos2, hr2, fun fuel hf => ?_⟩
      simp only [MdsGen.drawN, bind, Except.bind, pure, Except.pure, hx fuel (by omega), hx2 fuel (by omega)]
  have rows : ∀ m pos g, Rep b g pos → ∃ k xs g' pos', Rep b g' pos' ∧
      ∀ fuel, k < fuel → constantRows (nextFieldElement p n fuel) T m g = .ok (xs, g') := by
    intro m
    induction m with
    | zero => intro pos g hr; exact ⟨0, [], g, pos, hr, fun _ _ => rfl⟩
    | succ m ih =>
      intro pos g hr
      obtain ⟨k, xs, g', pos', hr', hx⟩ := draws T pos g hr
      obtain ⟨k2, ys, g2, pos2, hr2, hx2⟩ := ih _ _ hr'
      refine ⟨max k k2, (fun j => xs.getD j.val 0) :: ys, g2, pos2, hr2, fun fuel hf => ?_⟩
      simp only [constantRows, bind, Except.bind, pure, Except.pure, hx fuel (by omega), hx2 fuel (by omega)]
  obtain ⟨k, xs, g', -, -, hx⟩ := rows rounds 240 g h2
  exact ⟨k, xs, g', hx⟩

/-- A field of 2 bits (`p = 3`), where a quarter of all groups is rejected, width 7 and 1000 rounds. -/
example : ∃ g k rows g', Grain.new 0 2 7 8 992 = .ok g ∧
    ∀ fuel, k < fuel → constantRows (nextFieldElement 3 2 fuel) 7 1000 g = .ok (rows, g') := by
  obtain ⟨g, h1, -⟩ := new_rep' 0 2 7 8 992
  obtain ⟨k, rows, g', hk⟩ := C70_constants_terminate 0 2 7 8 992 3 2 7 1000 (by norm_num) (by norm_num)
    (by norm_num) g h1
  exact ⟨g, k, rows, g', h1, hk⟩

end Props
