import Verif.Circuit.SeptidonSound
import Verif.Circuit.SeptidonBn
import Mathlib.Tactic.FinCases
import Mathlib.Data.Rat.Defs
import Mathlib.Algebra.Field.Rat

/-!
# Properties of the Septidon chip: C21, C22, C25
-/

set_option linter.unusedVariables false

namespace Props
open Halo2 Circuit

variable {F : Type} [Field F]

/-- The textbook permutation the chip is meant to compute: 8 full and 57 partial rounds, `x^5`. -/
private noncomputable abbrev textbook (m : Base.Mds F 3) (rc : ℕ → Fin 3 → F) :
    (Fin 3 → F) → Fin 3 → F :=
  Spec.poseidon (fun v => v ^ 5) (Matrix.of m) 4 57 rc

/-- **C21.** Add the chip to any constraint system `cs`, and place any number of permutation regions
on pairwise disjoint 8-row ranges, anywhere, among any other operations that leave the fixed columns
of the chip alone. In every grid (any advice whatsoever) with these fixed columns on which the gates
hold, each region's final-state cells are the textbook permutation of its initial-state cells; and if
the copy constraints hold, the returned cells are the permutation of the given cells. -/
theorem C21_septidon_sound (m : Base.Mds F 3) (rc : ℕ → Fin 3 → F)
    (hc : ∀ r, 4 ≤ r → r < 61 → ∀ k, k ≠ 0 → rc r k = 0) (cs : CS F)
    (regions : List (Words F 3 × ℕ))
    (apart : regions.Pairwise fun q q' => q.2 + 8 ≤ q'.2 ∨ q'.2 + 8 ≤ q.2)
    (pre log post : List (Op F))
    (hlog : log = regions.flatMap fun q =>
      (Septidon.permuteBody m rc (Septidon.configure m rc cs).1 q.1 0 q.2).ops)
    (hother : ∀ o ∈ pre ++ post, ∀ c r v, o.FixedWrite c r v →
      ¬ (cs.numFixed ≤ c ∧ c < (Septidon.configure m rc cs).2.numFixed))
    (g : Grid F) (hfit : Fits log g.n)
    (hfix : ∀ c, cs.numFixed ≤ c → c < (Septidon.configure m rc cs).2.numFixed → ∀ r < g.n,
      g.fixed c r = finalFixed (pre ++ log ++ post) c r)
    (hgates : ∀ p ∈ (Septidon.configure m rc cs).2.gates, p.Holds g) :
    ∀ q ∈ regions,
      (∀ k, g.advice ((Septidon.configure m rc cs).1.finalCells k).column
          (q.2 + ((Septidon.configure m rc cs).1.finalCells k).offset.toNat) =
        textbook m rc (fun k => g.advice ((Septidon.configure m rc cs).1.initialCells k).column
          (q.2 + ((Septidon.configure m rc cs).1.initialCells k).offset.toNat)) k) ∧
      (CopiesHold g log → ∀ k,
        g.cell ((Septidon.permuteBody m rc (Septidon.configure m rc cs).1 q.1 0 q.2).val k).cell =
          textbook m rc (fun k => g.cell (q.1 k).cell) k) := by
  rw [Septidon.configure_eq] at *
  simp only at *
  have hlog' : log = Septidon.placedOps cs.numAdvice cs.numFixed m rc regions := hlog
  intro q hq
  have hfix' : ∀ c, cs.numFixed ≤ c → c < cs.numFixed + 11 → ∀ r < g.n,
      g.fixed c r = finalFixed log c r := by
    intro c h1 h2 r hr
    rw [hfix c h1 h2 r hr]
    exact finalFixed_between
      (fun o ho r v hw => hother o (List.mem_append_left _ ho) c r v hw ⟨h1, h2⟩)
      (fun o ho r v hw => hother o (List.mem_append_right _ ho) c r v hw ⟨h1, h2⟩) r
  rw [hlog'] at hfit hfix'
  have key := Septidon.placed_sound cs.numAdvice cs.numFixed m rc hc regions apart g hfit hfix'
    (fun p hp => hgates p (List.mem_append_right _ hp)) q hq
  have main : ∀ k, g.cell (Septidon.outWords cs.numAdvice m rc q.1 q.2 k).cell =
      textbook m rc (fun k : Fin 3 => g.advice (cs.numAdvice + k) q.2) k := by
    intro k
    rw [Septidon.outWords_cell cs.numAdvice m rc cs.numFixed, key]
    have : Septidon.fullIn g (Septidon.config cs.numAdvice cs.numFixed) q.2 =
        fun k : Fin 3 => g.advice (cs.numAdvice + k) q.2 := funext fun k => Septidon.fullIn_apply _ _ g q.2 k
    rw [this]; rfl
  refine ⟨fun k => ?_, fun hcp k => ?_⟩
  · have e := main k
    have e2 : (fun k => g.advice
        ((Septidon.config cs.numAdvice cs.numFixed).initialCells k).column
          (q.2 + ((Septidon.config cs.numAdvice cs.numFixed).initialCells k).offset.toNat)) =
        fun k : Fin 3 => g.advice (cs.numAdvice + k) q.2 := by
      funext k; fin_cases k <;> rfl
    rw [e2, ← e]
    fin_cases k <;> rfl
  · rw [Septidon.permuteBody_val _ _ m rc hc, main k]
    congr 1
    funext k
    refine hcp ⟨.advice (cs.numAdvice + k), q.2⟩ _ ?_
    rw [hlog']
    exact (Septidon.mem_placedOps _ _ m rc hc _ _).mpr ⟨q, hq, Or.inr ⟨k, rfl⟩⟩

/-- C21 with the crate's constants over `bn256::Fr`: the compact table is accepted, and the
permutation enforced is the one of the published (raw) constants, i.e. the native `Hash::permute`. -/
theorem C21_septidon_sound_bn254 : ∃ rc, Base.Bn256.cachedRoundConstants = .ok rc ∧
    (∀ r, 4 ≤ r → r < 61 → ∀ k, k ≠ 0 → rc.getD r 0 k = 0) ∧
    (∀ short s, Base.Bn256.permuteFr short s =
      .ok (Spec.poseidon (fun v => v ^ 5) (Matrix.of Base.Bn256.mds) 4 57 (fun r => rc.getD r 0) s)) ∧
    ∀ s, Spec.poseidon (fun v => v ^ 5) (Matrix.of Base.Bn256.mds) 4 57 (fun r => rc.getD r 0) s =
      Spec.poseidon (fun v => v ^ 5) (Matrix.of Base.Bn256.mds) 4 57
        (fun r => Base.Bn256.roundConstants.getD r 0) s := by
  obtain ⟨rc, h1, h2, h3, h4⟩ := Septidon.bn_table
  obtain ⟨rc', e1, -, e3, -⟩ := Base.Bn256.cached_ok
  rw [h1] at e1
  cases e1
  refine ⟨rc, h1, h3, fun short s => ?_, fun s => congrFun h4 s⟩
  simp only [Base.Bn256.permuteFr, h1, bind, Except.bind, e3, pure, Except.pure, ← h4]
  rfl

/-- Permute a list of states, by `permute_batch` with the given number of threads or one by one. -/
def septidonPermuteAll (m : Base.Mds F 3) (rc : ℕ → Fin 3 → F) (cfg : Septidon.Config)
    (L : Layouter F) (states : List (Words F 3)) :
    Option ℕ → Except Panic (List (Words F 3) × Layouter F)
  | some threads => Septidon.permuteBatch m rc cfg threads L states
  | none => mapPermute (Septidon.permute m rc cfg) L states

/-- **C22.** For every list of states, both `permute_batch` (any thread count) and permuting one state
after the other succeed and return words carrying the permuted states; and whatever else is written
to other columns, in every grid holding the written cells (with arbitrary values in the blinding
rows and in all other columns) every gate the chip added holds on every row, the returned cells hold
the returned values, and the copy constraints hold as soon as the given cells hold their values. -/
theorem C22_septidon_complete (m : Base.Mds F 3) (rc : ℕ → Fin 3 → F)
    (hc : ∀ r, 4 ≤ r → r < 61 → ∀ k, k ≠ 0 → rc r k = 0) (cs : CS F) (L : Layouter F)
    (states : List (Words F 3)) (batch : Option ℕ) :
    ∃ (outs : List (Words F 3)) (L' : Layouter F) (log : List (Op F)),
      septidonPermuteAll m rc (Septidon.configure m rc cs).1 L states batch = .ok (outs, L') ∧
      L'.ops = L.ops ++ log ∧
      outs.map (fun w k => (w k).value) =
        states.map (fun w => textbook m rc fun k => (w k).value) ∧
      ∀ (post : List (Op F)) (g : Grid F),
        (∀ o ∈ L.ops ++ post, ∀ c r v,
          (o.FixedWrite c r v → ¬ (cs.numFixed ≤ c ∧ c < (Septidon.configure m rc cs).2.numFixed)) ∧
          (o = .advice c r v → ¬ (cs.numAdvice ≤ c ∧ c < (Septidon.configure m rc cs).2.numAdvice))) →
        Fits log g.usable →
        HonestFor g (L'.ops ++ post)
          {c | cs.numFixed ≤ c ∧ c < (Septidon.configure m rc cs).2.numFixed} ∅
          {c | cs.numAdvice ≤ c ∧ c < (Septidon.configure m rc cs).2.numAdvice} →
        (∀ p ∈ (Septidon.configure m rc cs).2.gates, p ∈ cs.gates ∨ p.Holds g) ∧
        (∀ w ∈ outs, ∀ k, g.cell (w k).cell = (w k).value) ∧
        ((∀ w ∈ states, ∀ k, g.cell (w k).cell = (w k).value) → CopiesHold g log) := by
  let W := Septidon.lawful m rc hc
  obtain ⟨s, L', e, ho, hap⟩ : ∃ s L',
      septidonPermuteAll m rc (Septidon.configure m rc cs).1 L states batch =
        .ok (W.outs cs.numAdvice cs.numFixed 0 states s, L') ∧
      L'.ops = L.ops ++ W.ops cs.numAdvice cs.numFixed 0 states s ∧
      RowsApart W.height states.length s := by
    rw [Septidon.configure_eq]
    cases batch with
    | some t =>
      obtain ⟨s, L', h1, h2, -⟩ := W.batch cs.numAdvice cs.numFixed 0 L t states
      exact ⟨_, L', h1, h2, RowsApart.stack _ _ _⟩
    | none =>
      obtain ⟨s, L', h1, h2, -⟩ := W.serial cs.numAdvice cs.numFixed 0 L states
      exact ⟨_, L', h1, h2, RowsApart.stack _ _ _⟩
  refine ⟨_, L', _, e, ho, ?_, ?_⟩
  · have := W.values cs.numAdvice cs.numFixed 0 states s
    generalize W.outs cs.numAdvice cs.numFixed 0 states s = outs at this
    clear e ho hap
    induction this with
    | nil => rfl
    | cons h _ ih =>
      simp only [List.map_cons, ih, List.cons.injEq, and_true]
      funext k; exact h k
  · intro post g hother hfit hg
    rw [Septidon.configure_eq] at *
    simp only at *
    rw [ho] at hg
    have := W.complete cs.numAdvice cs.numFixed 0 states s g hap hg.usable_le hfit
      (fun c h1 h2 r hr => (hg.fixed c ⟨h1, h2⟩ r hr).trans (finalFixed_between
        (fun o ho r v hw => (hother o (List.mem_append_left _ ho) c r v).1 hw ⟨h1, h2⟩)
        (fun o ho r v hw => (hother o (List.mem_append_right _ ho) c r v).1 hw ⟨h1, h2⟩) r))
      (fun c h1 h2 => absurd h2 (by have : W.nS = 0 := rfl; omega))
      (fun c h1 h2 r hr => (hg.advice c ⟨h1, h2⟩ r hr).trans (finalAdvice_between
        (fun r v ho => (hother _ (List.mem_append_left _ ho) c r v).2 rfl ⟨h1, h2⟩)
        (fun r v ho => (hother _ (List.mem_append_right _ ho) c r v).2 rfl ⟨h1, h2⟩) r))
    refine ⟨fun p hp => ?_, this.2.1, this.2.2⟩
    rcases List.mem_append.mp hp with h | h
    · exact Or.inl h
    · exact Or.inr (this.1 p h)

/-- Non-vacuity of C22 and C21: a constraint system with one foreign gate and columns, two states, and
the grid of the honest prover (with nonzero blinding) satisfy all hypotheses of both. -/
example (m : Base.Mds ℚ 3) (w : Words ℚ 3) (batch : Option ℕ) :
    let cs : CS ℚ := ⟨2, 1, 0, [⟨"other", [.advice 0 0]⟩], [], []⟩
    let rc : ℕ → Fin 3 → ℚ := fun r k => if k = 0 then (r : ℚ) else if r < 4 then 3 else 0
    ∃ log g, Fits log g.usable ∧ g.usable < g.n ∧ log ≠ [] ∧
      HonestFor g log {c | 1 ≤ c ∧ c < 12} ∅ {c | 2 ≤ c ∧ c < 15} ∧
      log = [(w, 3), (w, 17)].flatMap (fun q =>
        (Septidon.permuteBody m rc (Septidon.configure m rc cs).1 q.1 0 q.2).ops) ∧
      (∀ r, 4 ≤ r → r < 61 → ∀ k, k ≠ 0 → rc r k = 0) ∧
      ∀ p ∈ Septidon.gates m rc (Septidon.configure m rc cs).1, p.Holds g := by
  intro cs rc
  have hc : ∀ r, 4 ≤ r → r < 61 → ∀ k, k ≠ 0 → rc r k = 0 := by
    intro r h1 h2 k hk
    simp only [rc, if_neg hk, if_neg (show ¬ r < 4 by omega)]
  have e : (Septidon.configure m rc cs).1 = Septidon.config 2 1 := by rw [Septidon.configure_eq]
  let ps : List (Words ℚ 3 × ℕ) := [(w, 3), (w, 17)]
  obtain ⟨log, hlog⟩ : ∃ log, log = Septidon.placedOps 2 1 m rc ps := ⟨_, rfl⟩
  let g : Grid ℚ := ⟨32, 27, fun c r => if r < 27 then finalAdvice log c r else 5,
    fun c r => finalFixed log c r, fun _ _ => false⟩
  have hapart : Septidon.Apart ps := by simp [Septidon.Apart, ps]
  have hfit : Fits log g.usable := by
    intro o ho
    obtain ⟨q, hq, h | ⟨k, h⟩⟩ := (Septidon.mem_placedOps 2 1 m rc hc ps o).mp (hlog ▸ ho)
    · have hq2 : q.2 ≤ 17 := by
        simp only [ps, List.mem_cons, List.not_mem_nil, or_false] at hq
        rcases hq with rfl | rfl <;> simp
      rcases h.shape with ⟨c, r, v, rfl, _, _, _, h7⟩ | ⟨c, r, v, rfl, _, _, _, h7⟩ <;>
        simp only [Op.bottom, g] <;> omega
    · subst h; simp [Op.bottom]
  have hon : HonestFor g log {c | 1 ≤ c ∧ c < 12} ∅ {c | 2 ≤ c ∧ c < 15} :=
    ⟨by simp [g], fun _ _ _ _ => rfl, fun s hs => absurd hs (by simp), fun c _ r hr => by
      simp only [g] at hr ⊢; rw [if_pos hr]⟩
  refine ⟨log, g, hfit, by simp [g], ?_, hon, by rw [e, hlog]; rfl, hc, ?_⟩
  · intro h
    have := (Septidon.mem_placedOps 2 1 m rc hc ps _).mpr
      ⟨(w, 3), by simp [ps], Or.inl Septidon.BlockOp.mark⟩
    rw [← hlog, h] at this
    simp at this
  · rw [e]
    exact (Septidon.placed_complete 2 1 m rc hc ps hapart g hon.usable_le (hlog ▸ hfit)
      (fun c h1 h2 r hr => hlog ▸ hon.fixed c ⟨h1, h2⟩ r hr)
      (fun c h1 h2 r hr => hlog ▸ hon.advice c ⟨h1, h2⟩ r hr)).1

/-- The chip's transition column is at least as full as its other columns. Chip calls preserve this
(second part of `C25_permute_batch`), and a fresh layouter has it. -/
def ChipLevel (a f : ℕ) (L : Layouter F) : Prop :=
  (∀ i < 13, L.colEnd (.advice (a + i)) ≤ L.colEnd (.advice (a + 12))) ∧
    ∀ i < 11, L.colEnd (.fixed (f + i)) ≤ L.colEnd (.advice (a + 12))

/-- **C25.** `permute_batch` returns the same words, in the same order, and performs literally the
same writes and copies as permuting the states one after the other, whatever the number of threads.
This holds for every sequence of chip calls on a layouter: the required level invariant holds
initially and is preserved by both. -/
theorem C25_permute_batch (m : Base.Mds F 3) (rc : ℕ → Fin 3 → F)
    (hc : ∀ r, 4 ≤ r → r < 61 → ∀ k, k ≠ 0 → rc r k = 0) (cs : CS F) (L : Layouter F)
    (hL : ChipLevel cs.numAdvice cs.numFixed L) (states : List (Words F 3)) (threads : ℕ) :
    ∃ outs L₁ L₂,
      mapPermute (Septidon.permute m rc (Septidon.configure m rc cs).1) L states = .ok (outs, L₁) ∧
      Septidon.permuteBatch m rc (Septidon.configure m rc cs).1 threads L states = .ok (outs, L₂) ∧
      L₁.ops = L₂.ops ∧ outs.length = states.length ∧
      ChipLevel cs.numAdvice cs.numFixed L₁ ∧ ChipLevel cs.numAdvice cs.numFixed L₂ := by
  rw [Septidon.configure_eq]
  obtain ⟨L₂, e2, o2, -, n2, t2⟩ := Septidon.batch_ok cs.numAdvice cs.numFixed m rc hc states threads L _ rfl
  have hL2 : ChipLevel cs.numAdvice cs.numFixed L₂ := by
    constructor
    · intro i hi
      by_cases h12 : i = 12
      · subst h12; exact le_rfl
      · rw [n2 _ (by intro h; injection h; omega), t2]
        have := hL.1 i hi; omega
    · intro i hi
      rw [n2 _ (by intro h; cases h), t2]
      have := hL.2 i hi; omega
  have hlen : ∀ s, (Septidon.blocksOut cs.numAdvice m rc states s).length = states.length := by
    intro s
    rw [Septidon.blocksOut_eq, List.length_map, placeAt_length]
  cases states with
  | nil =>
    refine ⟨[], L, L₂, rfl, e2, ?_, rfl, hL, hL2⟩
    simp [o2, Septidon.blocksOps]
  | cons w ws =>
    obtain ⟨s, h1, ⟨c, hc1, hc2⟩, L₁, e1, o1, l1, -⟩ :=
      Septidon.serial_ok cs.numAdvice cs.numFixed m rc hc w ws L
    have hs : s = L.colEnd (.advice (cs.numAdvice + 12)) := by
      apply le_antisymm
      · rw [← hc2]
        rcases hc1 with ⟨i, hi, rfl⟩ | ⟨i, hi, rfl⟩
        · exact hL.1 i hi
        · exact hL.2 i hi
      · exact h1 _ (Or.inl ⟨12, by omega, rfl⟩)
    subst hs
    refine ⟨_, L₁, L₂, e1, e2, by rw [o1, o2], hlen _, ?_, hL2⟩
    constructor
    · intro i hi
      rw [l1 _ (Or.inl ⟨i, hi, rfl⟩), l1 _ (Or.inl ⟨12, by omega, rfl⟩)]
    · intro i hi
      rw [l1 _ (Or.inr ⟨i, hi, rfl⟩), l1 _ (Or.inl ⟨12, by omega, rfl⟩)]

/-- A fresh layouter meets the hypothesis of C25, and so does one whose chip columns are in use. -/
example : ChipLevel (F := ℚ) 2 1 ⟨fun _ => 0, none, []⟩ ∧
    ChipLevel (F := ℚ) 2 1 ⟨fun c => if c = .advice 14 then 16 else 8, none, []⟩ := by
  constructor
  · exact ⟨fun _ _ => le_rfl, fun _ _ => le_rfl⟩
  · constructor
    · intro i hi; simp only [if_true]; split_ifs <;> omega
    · intro i hi; simp

end Props
