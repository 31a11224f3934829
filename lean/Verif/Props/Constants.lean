import Verif.Base.Constants
import Verif.Base.Bn256Lemmas
import Verif.Props.Grain
import Verif.Props.Bn254

set_option linter.unusedSimpArgs false

/-!
# The default `Spec::constants`: C49
-/

namespace Props
open Base Base.Grain Base.MdsGen

/-- `vs` are the values of the first `vs.length` groups of `numBits` bits (most significant bit first) of
the reference Grain stream for `seed`. -/
def StreamGroups (seed numBits : ℕ) (vs : List ℕ) : Prop :=
  ∃ m, (Spec.shrink (Spec.lfsr seed) 240 m).length = vs.length * numBits ∧
    ∀ k, k < vs.length → vs.getD k 0 =
      Spec.ofBitsMSB (((Spec.shrink (Spec.lfsr seed) 240 m).drop (k * numBits)).take numBits)

private theorem streamGroups_of (sbox n t rf rp numBits : ℕ) (g g' : Grain) (vs : List ℕ)
    (h0 : Grain.new sbox n t rf rp = .ok g) (h : Groups numBits g vs g') :
    StreamGroups (seedOf sbox n t rf rp) numBits vs := by
  obtain ⟨g1, h1, h2⟩ := new_rep' sbox n t rf rp
  obtain rfl : g = g1 := by rw [h0] at h1; exact Except.ok.inj h1
  obtain ⟨l, h3, h4⟩ := h.bits
  obtain ⟨l', g2, m, e, h5, h6, -⟩ :=
    takeBits_spec _ (lfsr_rec _) (seed_79 _ _ _ _ _) (vs.length * numBits) g 240 h2
  rw [h3] at e
  obtain ⟨rfl, -⟩ := Prod.mk.inj (Except.ok.inj e)
  refine ⟨m, ?_, fun k hk => ?_⟩
  · show (Spec.shrink (Spec.lfsr (seedOf sbox n t rf rp)) 240 m).length = _
    unfold seedOf
    rw [← h5]; exact h6
  · unfold seedOf
    rw [h4 k hk, ← h5]

private theorem seedOf_u16 (n t rf rp : ℕ) :
    seedOf 0 n (t % 2 ^ 16) (rf % 2 ^ 16) (rp % 2 ^ 16) = seedOf 0 n t rf rp := by
  unfold seedOf
  rw [Nat.mod_mod_of_dvd t (by norm_num : 2 ^ 12 ∣ 2 ^ 16), Nat.mod_mod_of_dvd rf (by norm_num : 2 ^ 10 ∣ 2 ^ 16),
    Nat.mod_mod_of_dvd rp (by norm_num : 2 ^ 10 ∣ 2 ^ 16)]

/-- **C49.** Whenever the default `Spec::constants` returns, for any prime field, width, round numbers and
`secure_mds`: with `vs ++ ws` the first groups of the reference Grain stream for these parameters, the
round constants are the groups of `vs` below `p`, row by row, in order; `vs` ends with the last one used. The
matrix is the Cauchy matrix of a batch of `2 * T` groups of `ws` modulo `p` without repetition, preceded by
exactly `secure_mds` such batches; the third component is its two-sided inverse; every square submatrix of
the matrix is invertible. -/
theorem C49_default_constants (p : ℕ) [Fact p.Prime] (numBits T rf rp sel fuel : ℕ) (hn : numBits ≤ 256)
    (rcs : List (State (ZMod p) T)) (mds inv : Mds (ZMod p) T)
    (h : defaultConstants p numBits T rf rp sel fuel = .ok (rcs, mds, inv)) :
    ∃ vs ws : List ℕ, StreamGroups (seedOf 0 numBits T rf rp) numBits (vs ++ ws) ∧
      (∀ v ∈ vs.getLast?, v < p) ∧ (vs.filter (· < p)).length = (rf + rp) * T ∧
      rcs.length = rf + rp ∧
      (∀ i (hi : i < rcs.length) (j : Fin T),
        rcs[i] j = (((vs.filter (· < p)).getD (i * T + j.val) 0 : ℕ) : ZMod p)) ∧
      (∃ k, ws.length = (k + 1) * (2 * T) ∧
        ((List.range k).filter fun b =>
          (((ws.drop (b * (2 * T))).take (2 * T)).map fun v : ℕ => (v : ZMod p)).Nodup).length = sel ∧
        (((ws.drop (k * (2 * T))).take (2 * T)).map fun v : ℕ => (v : ZMod p)).Nodup ∧
        ∀ i j : Fin T, ((ws.getD (k * (2 * T) + i) 0 : ℕ) : ZMod p) + (ws.getD (k * (2 * T) + T + j) 0 : ℕ) ≠ 0 ∧
          mds i j = (((ws.getD (k * (2 * T) + i) 0 : ℕ) : ZMod p) + (ws.getD (k * (2 * T) + T + j) 0 : ℕ))⁻¹) ∧
      Matrix.of mds * Matrix.of inv = 1 ∧ Matrix.of inv * Matrix.of mds = 1 ∧
      ∀ (s : ℕ) (r c : Fin s → Fin T), Function.Injective r → Function.Injective c →
        ((Matrix.of mds).submatrix r c).det ≠ 0 := by
  have : NeZero p := ⟨(Fact.out : p.Prime).ne_zero⟩
  simp only [defaultConstants] at h
  cases hg : Grain.new 0 numBits (T % 2 ^ 16) (rf % 2 ^ 16) (rp % 2 ^ 16) with
  | error e => rw [hg] at h; cases h
  | ok g =>
    rw [hg, ok_bind] at h
    cases hr : constantRows (nextFieldElement p numBits fuel) T (rf + rp) g with
    | error e => rw [hr] at h; cases h
    | ok v =>
      obtain ⟨rows, g1⟩ := v
      rw [hr, ok_bind] at h
      simp only at h
      cases hm : generateMds (nextFieldElementWithoutRejection p numBits) (leZMod p) T fuel sel g1 with
      | error e => rw [hm] at h; cases h
      | ok w =>
        obtain ⟨m, mi, g2⟩ := w
        rw [hm, ok_bind] at h
        simp only [pure, Except.pure, Except.ok.injEq, Prod.mk.injEq] at h
        obtain ⟨rfl, rfl, rfl⟩ := h
        obtain ⟨l, hl, rfl⟩ := constantRows_ok _ T _ g g1 rows hr
        obtain ⟨vs, hv1, hv2, hv3⟩ := drawN_rejection_groups p numBits hn fuel _ g g1 l hl
        obtain ⟨⟨k, l', hd, hc1, hc2, hc3⟩, hi1, hi2, hi3⟩ := C18_generate_mds _ (leZMod p)
          (leZMod_total p) (leZMod_trans p) (leZMod_anti p) T fuel sel g1 g2 m mi hm
        obtain ⟨ws, hw1, rfl⟩ := drawN_plain_groups p numBits (by omega) _ g1 g2 l' hd
        have hlen := drawN_len _ _ _ _ _ hl
        have hlen' := drawN_len _ _ _ _ _ hd
        rw [hv2, List.length_map] at hlen
        rw [List.length_map] at hlen'
        have hget : ∀ (q : List ℕ) (i : ℕ), (q.map fun v : ℕ => (v : ZMod p)).getD i 0 = ((q.getD i 0 : ℕ) : ZMod p) := by
          intro q i
          rw [← Nat.cast_zero, List.getD_map]
        refine ⟨vs, ws, ?_, hv3, hlen, by simp, ?_, ⟨k, hlen', ?_, ?_, ?_⟩, hi1, hi2, hi3⟩
        · have := streamGroups_of 0 numBits (T % 2 ^ 16) (rf % 2 ^ 16) (rp % 2 ^ 16) numBits g g2
            (vs ++ ws) hg (hv1.append hw1)
          rwa [seedOf_u16] at this
        · intro i hi j
          simp only [List.getElem_map, List.getElem_range, hv2, hget]
        · simpa only [List.map_take, List.map_drop] using hc1
        · simpa only [List.map_take, List.map_drop] using hc2
        · intro i j
          have := hc3 i j
          simpa only [hget] using this

private theorem plain_rep (p numBits : ℕ) (hn : numBits ≤ 512) (b : ℕ → Bool) (hb : Rec b) (h79 : b 79 = true)
    (g : Grain) (pos : ℕ) (hr : Rep b g pos) :
    ∃ x g' pos', nextFieldElementWithoutRejection p numBits g = .ok (x, g') ∧ Rep b g' pos' := by
  obtain ⟨l, g', m, e, h1, h2, h3⟩ := takeBits_spec b hb h79 numBits g pos hr
  obtain ⟨v, hv, -, -, -⟩ := writeBits_spec numBits 64 l h2 (by omega)
  exact ⟨_, g', _, by simp only [nextFieldElementWithoutRejection, e, ok_bind, hv]; rfl, h3⟩

private theorem rejection_rep (p numBits : ℕ) (hn : numBits ≤ 256) (b : ℕ → Bool) (hb : Rec b)
    (h79 : b 79 = true) (fuel : ℕ) : ∀ (g : Grain) (pos : ℕ), Rep b g pos →
    nextFieldElement p numBits fuel g = .error .diverge ∨
    ∃ x g' pos', nextFieldElement p numBits fuel g = .ok (x, g') ∧ Rep b g' pos' := by
  induction fuel with
  | zero => intro g pos _; exact Or.inl rfl
  | succ fuel ih =>
    intro g pos hr
    obtain ⟨l, g', m, e, h1, h2, h3⟩ := takeBits_spec b hb h79 numBits g pos hr
    obtain ⟨v, hv, -, -, -⟩ := writeBits_spec numBits 32 l h2 (by omega)
    simp only [nextFieldElement, e, ok_bind, hv]
    split
    · exact Or.inr ⟨_, g', _, rfl, h3⟩
    · exact ih g' _ h3

/-- A generator state reached by drawing keeps an invariant that draws preserve. -/
private theorem reached_inv {F G : Type} (draw : G → Except Panic (F × G)) (I : G → Prop)
    (hI : ∀ g x g', I g → draw g = .ok (x, g') → I g') (n : ℕ) : ∀ (g g' : G) (l : List F), I g →
    drawN draw n g = .ok (l, g') → I g' := by
  induction n with
  | zero =>
    intro g g' l h0 h
    simp only [drawN, Except.ok.injEq, Prod.mk.injEq] at h
    rw [← h.2]; exact h0
  | succ n ih =>
    intro g g' l h0 h
    obtain ⟨x, g1, xs, h1, h2, -⟩ := drawN_succ_ok _ _ _ _ _ h
    exact ih g1 g' xs (hI g x g1 h0 h1) h2

private theorem rows_error {F G : Type} [Field F] [DecidableEq F] (draw : G → Except Panic (F × G)) (I : G → Prop)
    (hI : ∀ g x g', I g → draw g = .ok (x, g') → I g') (T : ℕ) (e : Panic)
    (hE : ∀ g e', I g → draw g = .error e' → e' = e) (n : ℕ) :
    ∀ (g : G), I g → (∃ rows g', constantRows draw T n g = .ok (rows, g') ∧ I g') ∨
      constantRows draw T n g = .error e := by
  induction n with
  | zero => intro g h; exact Or.inl ⟨[], g, rfl, h⟩
  | succ n ih =>
    intro g h
    simp only [constantRows, bind, Except.bind, pure, Except.pure]
    cases hd : drawN draw T g with
    | error e' =>
      obtain ⟨g', ⟨m, l, h1⟩, h2⟩ := drawN_error draw _ _ _ hd
      exact Or.inr (by rw [hE g' e' (reached_inv draw I hI _ _ _ _ h h1) h2])
    | ok v =>
      simp only
      rcases ih v.2 (reached_inv draw I hI _ _ _ _ h hd) with ⟨rows, g', h1, h2⟩ | h1
      · rw [h1]; exact Or.inl ⟨_, g', rfl, h2⟩
      · rw [h1]; exact Or.inr rfl

/-- **C49, panics.** The only panic of the default `Spec::constants` is a vanishing sum in `generate_mds`; apart
from it only the iteration budget of the model can run out. -/
theorem C49_default_constants_panics (p : ℕ) [Fact p.Prime] (numBits T rf rp sel fuel : ℕ)
    (hn : numBits ≤ 256) (e : Panic) (h : defaultConstants p numBits T rf rp sel fuel = .error e) :
    e = .zeroSum ∨ e = .diverge := by
  have : NeZero p := ⟨(Fact.out : p.Prime).ne_zero⟩
  obtain ⟨g, hg, hrep⟩ := new_rep' 0 numBits (T % 2 ^ 16) (rf % 2 ^ 16) (rp % 2 ^ 16)
  obtain ⟨b, hb⟩ : ∃ b, b = Spec.lfsr (seedOf 0 numBits (T % 2 ^ 16) (rf % 2 ^ 16) (rp % 2 ^ 16)) := ⟨_, rfl⟩
  have hrec : Rec b := by rw [hb]; exact lfsr_rec _
  have h79 : b 79 = true := by rw [hb]; exact seed_79 _ _ _ _ _
  rw [← hb] at hrep
  simp only [defaultConstants, hg, ok_bind] at h
  rcases rows_error (nextFieldElement p numBits fuel) (fun g => ∃ pos, Rep b g pos)
      (fun g x g' ⟨pos, h1⟩ h2 => by
        rcases rejection_rep p numBits hn b hrec h79 fuel g pos h1 with h3 | ⟨x', g2, pos', h3, h4⟩
        · rw [h2] at h3; cases h3
        · rw [h2] at h3
          obtain ⟨-, rfl⟩ := Prod.mk.inj (Except.ok.inj h3)
          exact ⟨pos', h4⟩) T .diverge
      (fun g e' ⟨pos, h1⟩ h2 => by
        rcases rejection_rep p numBits hn b hrec h79 fuel g pos h1 with h3 | ⟨x', g2, pos', h3, h4⟩
        · rw [h2] at h3; exact Except.error.inj h3
        · rw [h2] at h3; cases h3) (rf + rp) g ⟨_, hrep⟩ with ⟨rows, g1, h1, h2⟩ | h1
  · rw [h1, ok_bind] at h
    simp only at h
    cases hm : generateMds (nextFieldElementWithoutRejection p numBits) (leZMod p) T fuel sel g1 with
    | ok w => rw [hm] at h; cases h
    | error e' =>
      rw [hm] at h
      obtain rfl : e' = e := Except.error.inj h
      rcases C18_generate_mds_panics _ (leZMod p) (leZMod_total p) (leZMod_trans p) (leZMod_anti p) T fuel sel
          g1 e' hm with ⟨h3, -⟩ | h3 | ⟨n, l, g', h3, h4⟩
      · exact Or.inl h3
      · exact Or.inr h3
      · exfalso
        obtain ⟨pos, hp⟩ := reached_inv (nextFieldElementWithoutRejection p numBits) (fun g => ∃ pos, Rep b g pos)
          (fun g x g' ⟨pos, h1⟩ h2 => by
            obtain ⟨x', g2, pos', h5, h6⟩ := plain_rep p numBits (by omega) b hrec h79 g pos h1
            rw [h2] at h5
            obtain ⟨-, rfl⟩ := Prod.mk.inj (Except.ok.inj h5)
            exact ⟨pos', h6⟩) n g1 g' l h2 h3
        obtain ⟨x, g2, pos', h5, -⟩ := plain_rep p numBits (by omega) b hrec h79 g' pos hp
        rw [h4] at h5; cases h5
  · rw [h1] at h
    exact Or.inr (Except.error.inj h).symm

/-- The run of the default `Spec::constants` when the groups of the stream are known. -/
theorem defaultConstants_run (p : ℕ) [Fact p.Prime] (numBits T rf rp fuel : ℕ) (hn : numBits ≤ 256)
    (h0 : 0 < numBits) (hT : T < 2 ^ 12) (hrf : rf < 2 ^ 10) (hrp : rp < 2 ^ 10) (count : ℕ) (vs ws : List ℕ)
    (he : evalDraws numBits count (evalStart (Spec.grainSeed 0 numBits T rf rp)) = some (vs ++ ws))
    (hlast : ∀ v ∈ vs.getLast?, v < p) (hlen : (vs.filter (· < p)).length = (rf + rp) * T)
    (hws : ws.length = 2 * T) (hnd : (ws.map fun v : ℕ => (v : ZMod p)).Nodup) (M : Mds (ZMod p) T)
    (hM : ∀ i j : Fin T, (((ws.getD i.val 0 : ℕ) : ZMod p) + (ws.getD (T + j.val) 0 : ℕ)) * M i j = 1)
    (hf : vs.length ≤ fuel) (hf1 : 1 ≤ fuel) :
    ∃ inv, defaultConstants p numBits T rf rp 0 fuel = .ok ((List.range (rf + rp)).map fun i => fun j =>
        (((vs.filter (· < p)).getD (i * T + j.val) 0 : ℕ) : ZMod p), M, inv) ∧
      Matrix.of M * Matrix.of inv = 1 := by
  have : NeZero p := ⟨(Fact.out : p.Prime).ne_zero⟩
  obtain ⟨g, g3, hg, hgr⟩ := evalDraws_new 0 numBits T rf rp numBits count (by norm_num) (by omega) hT hrf hrp
    h0 _ he
  obtain ⟨g1, hd, hgr1⟩ := drawN_rejection_of_groups p numBits hn fuel _ vs rfl g g3 ws hgr hlast hf
  rw [hlen] at hd
  have hrows := constantRows_of_drawN _ T (rf + rp) g g1 _ hd
  obtain ⟨g2, hd2, -⟩ := drawN_plain_of_groups p numBits (by omega) ws g1 g3 [] (by simpa using hgr1)
  have hget : ∀ (q : List ℕ) (i : ℕ),
      (q.map fun v : ℕ => (v : ZMod p)).getD i 0 = ((q.getD i 0 : ℕ) : ZMod p) := by
    intro q i
    rw [← Nat.cast_zero, List.getD_map]
  obtain ⟨l, hl⟩ : ∃ l, l = ws.map fun v : ℕ => (v : ZMod p) := ⟨_, rfl⟩
  have hll : l.length = 2 * T := by rw [hl, List.length_map, hws]
  have hsum : ∀ i j : Fin T, (l.take T).getD i 0 + (l.drop T).getD j 0 =
      ((ws.getD i.val 0 : ℕ) : ZMod p) + (ws.getD (T + j.val) 0 : ℕ) := by
    intro i j
    have e1 : (l.take T).getD i 0 = l.getD i 0 := by
      simp [List.getD_eq_getElem?_getD, List.getElem?_take]
    have e2 : (l.drop T).getD j 0 = l.getD (T + j) 0 := by
      simp [List.getD_eq_getElem?_getD, List.getElem?_drop]
    rw [e1, e2, hl, hget, hget]
  have hMi : M = fun i j : Fin T => ((l.take T).getD i.val 0 + (l.drop T).getD j.val 0)⁻¹ := by
    funext i j
    rw [hsum]
    exact eq_inv_of_mul_eq_one_right (hM i j)
  have hne : ∀ i j : Fin T, (l.take T).getD i 0 + (l.drop T).getD j 0 ≠ 0 := by
    intro i j h
    have := hM i j
    rw [hsum] at h
    rw [h, zero_mul] at this
    exact zero_ne_one this
  have hacc : accepts (leZMod p) l = true :=
    (C19_duplicate_detection _ (leZMod_total p) (leZMod_trans p) (leZMod_anti p) l).mpr (by rw [hl]; exact hnd)
  have hsample : sample (nextFieldElementWithoutRejection p numBits) (leZMod p) T fuel g1 =
      .ok (l.take T, l.drop T, g2) := by
    obtain ⟨fuel, rfl⟩ : ∃ f, fuel = f + 1 := ⟨fuel - 1, by omega⟩
    rw [hws, ← hl] at hd2
    simp only [sample, hd2, ok_bind, if_pos hacc]
    rfl
  have hcau : cauchy T (l.take T) (l.drop T) = .ok M := by
    unfold cauchy
    rw [if_pos hne, hMi]
  obtain ⟨hxi, hyi⟩ := halves T l hll (by rw [hl]; exact hnd)
  have hgen := inverse_ok T (l.take T) (l.drop T) (by rw [List.length_take, hll]; omega)
    (by rw [List.length_drop, hll]; omega) hxi hyi
  obtain ⟨inv, hinv⟩ : ∃ inv, inverse T (l.take T) (l.drop T) = .ok inv := ⟨_, hgen⟩
  have hG : generateMds (nextFieldElementWithoutRejection p numBits) (leZMod p) T fuel 0 g1 =
      .ok (M, inv, g2) := by
    simp only [generateMds, select, hsample, ok_bind, hcau, hinv, pure, Except.pure, bind, Except.bind]
  refine ⟨inv, ?_, (C18_generate_mds _ (leZMod p) (leZMod_total p) (leZMod_trans p) (leZMod_anti p) T fuel 0 g1
    g2 M inv hG).2.1⟩
  have h16 : T % 2 ^ 16 = T ∧ rf % 2 ^ 16 = rf ∧ rp % 2 ^ 16 = rp :=
    ⟨Nat.mod_eq_of_lt (by omega), Nat.mod_eq_of_lt (by omega), Nat.mod_eq_of_lt (by omega)⟩
  simp only [defaultConstants, h16.1, h16.2.1, h16.2.2, hg, ok_bind, hrows, hG, hget, pure, Except.pure]

open Base.Bn256 in
/-- The 271 groups of the stream of the BN254 parameters: 265 for the constants, of which 70 are rejected, and 6
for the matrix. Computed by the kernel. -/
private theorem bn_eval : ((evalDraws 254 271 (evalStart (Spec.grainSeed 0 254 3 8 57))).map fun l =>
    ((l.take 265).filter (· < r) == roundConstantStrings) && l.length == 271 &&
      decide ((l.take 265).getLastD 0 < r) && decide ((l.drop 265).map (· % r)).Nodup &&
      (List.range 3).all fun i => (List.range 3).all fun j =>
        ((l.drop 265).getD i 0 + (l.drop 265).getD (3 + j) 0) * (mdsStrings.getD i []).getD j 0 % r == 1) =
    some true := by
  decide +kernel

open Base.Bn256 in
/-- **C49, BN254.** The hard-coded tables of `bn256/fp.rs` (195 round constants, `MDS`, and `MDS_INV` as its
initialiser computes it) are what the default `Spec::constants` generates for the 254-bit BN254 scalar field with
width 3, 8 full and 57 partial rounds and `secure_mds = 0`. -/
theorem C49_bn254_constants : 2 ^ 253 ≤ r ∧ r < 2 ^ 254 ∧ ∃ inv N, mdsInv mds = .ok inv ∧ ∀ fuel, N ≤ fuel →
    defaultConstants r 254 3 8 57 0 fuel = .ok (roundConstants, mds, inv) := by
  refine ⟨by norm_num, by norm_num, ?_⟩
  obtain ⟨inv, h1, h2, h3⟩ := C20_bn254_mds_inv
  refine ⟨inv, 271, h1, fun fuel hf => ?_⟩
  obtain ⟨l, hl, hc⟩ := Option.map_eq_some_iff.mp bn_eval
  simp only [Bool.and_eq_true, beq_iff_eq, decide_eq_true_eq, List.all_eq_true, List.mem_range] at hc
  obtain ⟨⟨⟨⟨c1, c2⟩, c3⟩, c4⟩, c5⟩ := hc
  have hcast : ((l.drop 265).map (· % r)).map (fun v : ℕ => (v : Fr)) = (l.drop 265).map fun v : ℕ => (v : Fr) := by
    rw [List.map_map]
    apply List.map_congr_left
    intro v _
    simp only [Function.comp, ZMod.natCast_mod]
  obtain ⟨inv', e1, e2⟩ := defaultConstants_run r 254 3 8 57 fuel (by norm_num) (by norm_num) (by norm_num)
    (by norm_num) (by norm_num) 271 (l.take 265) (l.drop 265) (by rw [List.take_append_drop]; exact hl)
    (by
      intro v hv
      rw [List.getLastD_eq_getLast?, Option.mem_def.mp hv] at c3
      exact c3)
    (by rw [c1]; rfl) (by rw [List.length_drop, c2]) 
    (by
      rw [← hcast]
      refine c4.map_on ?_
      intro x hx y hy hxy
      obtain ⟨x', -, rfl⟩ := List.mem_map.mp hx
      obtain ⟨y', -, rfl⟩ := List.mem_map.mp hy
      have := (ZMod.natCast_eq_natCast_iff' _ _ _).mp hxy
      simpa only [Nat.mod_mod] using this)
    mds
    (by
      intro i j
      have := c5 i.val i.isLt j.val j.isLt
      simp only [mds]
      have h := congrArg (fun n : ℕ => (n : Fr)) this
      simpa only [ZMod.natCast_mod, Nat.cast_mul, Nat.cast_add, Nat.cast_one] using h)
    (by rw [List.length_take, c2]; omega) (by omega)
  have hinv : inv' = inv := by
    have := left_inv_eq_right_inv h3 e2
    exact (Matrix.of.injective this).symm
  rw [e1, c1, hinv]
  rfl

/-- The hypothesis of C49 is met by the BN254 parameters. -/
example : ∃ fuel rcs mds inv, defaultConstants Bn256.r 254 3 8 57 0 fuel = .ok (rcs, mds, inv) := by
  obtain ⟨-, -, inv, N, -, h⟩ := C49_bn254_constants
  exact ⟨N, _, _, _, h N le_rfl⟩

/-- The hypothesis of the panic theorem is met: an iteration budget of zero. -/
example : defaultConstants Bn256.r 254 3 8 57 0 0 = .error .diverge := by
  obtain ⟨g, hg, -⟩ := new_rep' 0 254 3 8 57
  have : constantRows (nextFieldElement Bn256.r 254 0) 3 (8 + 57) g = .error .diverge := rfl
  simp only [defaultConstants, show 3 % 2 ^ 16 = 3 from rfl, show 8 % 2 ^ 16 = 8 from rfl,
    show 57 % 2 ^ 16 = 57 from rfl, hg, ok_bind, this]
  rfl

end Props
