import Verif.Circuit.HashCircuitValues
import Verif.Props.HashCircuit
import Verif.Props.Values

/-!
# The hash circuit without its witnesses: C79

C72 has the chips and the gadget with unknown values, C75 the whole circuit with known ones. Here is the whole circuit
with unknown ones: keys are made from `without_witnesses`, proofs from the circuit with a message.
-/

set_option linter.unusedVariables false
set_option linter.unusedSectionVars false

open Halo2 Circuit Circuit.TestCircuit

namespace Props

variable {F : Type} [Field F] {t : ℕ}

/-- The same operation with a known value, or an assignment to the same advice cell. -/
def SamePlace (o : Op (Value F)) (u : Op F) : Prop :=
  o = knownOp u ∨ ∃ c r v x, o = .advice c r v ∧ u = .advice c r x

/-- The layout of key generation, `L`, and the layout of a proof, `X`, have the same regions and the same operations up
to the values of advice cells; everything outside the advice columns is known. -/
structure KeyOf (L : Layouter (Value F)) (X : Layouter F) : Prop where
  colEnd : L.colEnd = X.colEnd
  constCol : L.constCol = X.constCol
  ops : List.Forall₂ SamePlace L.ops X.ops

private theorem samePlace_of {o o₀ : Op (Value F)} {u u' : Op F} (h1 : Vals.OpTracks True o u')
    (h2 : Vals.OpTracks True o₀ u') (h3 : Vals.OpTracks True o₀ u) : SamePlace o u := by
  cases o <;> cases u' <;> simp only [Vals.OpTracks] at h1 <;> cases o₀ <;> simp only [Vals.OpTracks] at h2 <;>
    cases u <;> simp only [Vals.OpTracks] at h3
  · obtain ⟨rfl, rfl, -⟩ := h1
    obtain ⟨rfl, rfl, -⟩ := h2
    obtain ⟨rfl, rfl, -⟩ := h3
    exact Or.inr ⟨_, _, _, _, rfl, rfl⟩
  all_goals
    left
    simp_all [knownOp]

private theorem keyOf_of {L L₀ : Layouter (Value F)} {X X' : Layouter F} (h1 : Vals.LTracks True L X')
    (h2 : Vals.LTracks True L₀ X') (h3 : Vals.LTracks True L₀ X) : KeyOf L X := by
  obtain ⟨a1, a2, a3⟩ := h1
  obtain ⟨b1, b2, b3⟩ := h2
  obtain ⟨c1, c2, c3⟩ := h3
  refine ⟨a1.trans (b1.symm.trans c1), a2.trans (b2.symm.trans c2), ?_⟩
  rw [List.forall₂_iff_get] at a3 b3 c3 ⊢
  refine ⟨a3.1.trans (b3.1.symm.trans c3.1), fun i h h' => ?_⟩
  exact samePlace_of (a3.2 i h (a3.1 ▸ h)) (b3.2 i (by rw [c3.1]; exact h') (a3.1 ▸ h)) (c3.2 i (by rw [c3.1]; exact h') h')

/-- **C79.** Whatever of the message and of the output is given, the outcome is that for any message and output: the
same panic, or the same constraint system and the same layout up to the values of advice cells. -/
theorem C79_circuit (S : Pow5.Params F t) {n : ℕ} (w : HashWitness F n) (m : Fin n → F) (y : F) :
    (∀ e, hashCircuitValues S w = .error e ↔ hashCircuit S m y = .error e) ∧
    ∀ cs L, hashCircuitValues S w = .ok (cs, L) → ∃ X, hashCircuit S m y = .ok (cs, X) ∧ KeyOf L X := by
  unfold hashCircuitValues hashCircuit
  cases hc : hashConfigure S with
  | error e => simp [bind, Except.bind]
  | ok u =>
    obtain ⟨c, cs, k⟩ := u
    have hf : Vals.LTracks True (freshLayouter (some k) : Layouter (Value F)) (freshLayouter (some k) : Layouter F) :=
      ⟨rfl, rfl, .nil⟩
    have opt : ∀ {α : Type} (o : Option α) (d : α), o = some (o.getD d) ∨ (True ∧ o = none) := by
      intro α o d; cases o
      · exact Or.inr ⟨trivial, rfl⟩
      · exact Or.inl rfl
    have t1 := tracks_synthesize S c (opt w.message 0) (opt w.output 0) hf
    have t2 := tracks_synthesize S c (w := w.withoutWitnesses) (m := w.message.getD 0) (y := w.output.getD 0)
      (Or.inr ⟨trivial, rfl⟩) (Or.inr ⟨trivial, rfl⟩) hf
    have t3 := tracks_synthesize S c (w := w.withoutWitnesses) (m := m) (y := y)
      (Or.inr ⟨trivial, rfl⟩) (Or.inr ⟨trivial, rfl⟩) hf
    revert t1 t2 t3
    simp only [bind, Except.bind]
    cases synthesizeValues S c w (freshLayouter (some k)) <;>
      cases synthesizeValues S c w.withoutWitnesses (freshLayouter (some k)) <;>
      cases hashSynthesize S c (w.message.getD 0) (w.output.getD 0) (freshLayouter (some k)) <;>
      cases hashSynthesize S c m y (freshLayouter (some k)) <;>
      simp only [Vals.ETracks, false_imp_iff, implies_true]
    · rintro rfl rfl rfl
      simp
    · intro t1 t2 t3
      refine ⟨by simp [pure, Except.pure], fun cs' L h => ?_⟩
      simp only [pure, Except.pure, Except.ok.injEq, Prod.mk.injEq] at h
      obtain ⟨rfl, rfl⟩ := h
      exact ⟨_, rfl, keyOf_of t1 t2 t3⟩

/-- **C79**, known witnesses: with message and output given, the circuit is the one of C75. -/
theorem C79_known (S : Pow5.Params F t) {n : ℕ} (m : Fin n → F) (y : F) :
    hashCircuitValues S ⟨some m, some y⟩ = (hashCircuit S m y).map fun u => (u.1, knownL u.2) := by
  unfold hashCircuitValues hashCircuit
  cases hc : hashConfigure S with
  | error e => rfl
  | ok u =>
    obtain ⟨c, cs, k⟩ := u
    have t := tracks_synthesize (b := False) S c (w := ⟨some m, some y⟩) (m := m) (y := y) (Or.inl rfl) (Or.inl rfl)
      (L := freshLayouter (some k)) (X := freshLayouter (some k)) ⟨rfl, rfl, .nil⟩
    revert t
    simp only [bind, Except.bind]
    cases synthesizeValues S c ⟨some m, some y⟩ (freshLayouter (some k)) <;>
      cases hashSynthesize S c m y (freshLayouter (some k)) <;>
      simp only [Vals.ETracks, false_imp_iff]
    · rintro rfl; rfl
    · intro t
      rw [layouter_of_tracks t]; rfl

/-! ### The key -/

/-- Operations that differ in the values of advice cells only. -/
private def SameBut (u u' : Op F) : Prop := u = u' ∨ ∃ c r x x', u = .advice c r x ∧ u' = .advice c r x'

private theorem sameBut_of {o : Op (Value F)} {u u' : Op F} (h : SamePlace o u) (h' : SamePlace o u') : SameBut u u' := by
  rcases h with rfl | ⟨c, r, v, x, rfl, rfl⟩ <;> rcases h' with e | ⟨c', r', v', x', e, rfl⟩
  · left
    cases u <;> cases u' <;> simp only [knownOp, Op.advice.injEq, Op.fixed.injEq, Op.selector.injEq, Op.copy.injEq,
      Op.constant.injEq, Op.fill.injEq, Option.some.injEq, reduceCtorEq] at e <;> simp [e]
  · right
    cases u <;> simp only [knownOp, reduceCtorEq, Op.advice.injEq] at e
    obtain ⟨rfl, rfl, -⟩ := e
    exact ⟨_, _, _, _, rfl, rfl⟩
  · right
    cases u' <;> simp only [knownOp, reduceCtorEq, Op.advice.injEq] at e
    obtain ⟨rfl, rfl, -⟩ := e
    exact ⟨_, _, _, _, rfl, rfl⟩
  · right
    simp only [Op.advice.injEq] at e
    obtain ⟨rfl, rfl, -⟩ := e
    exact ⟨_, _, _, _, rfl, rfl⟩

/-- **C79**, keys: the fixed cells, selectors and copy constraints of a layout that has the key `L` are determined by `L`,
as is the number of rows. -/
theorem C79_key {L : Layouter (Value F)} {X X' : Layouter F} (h : KeyOf L X) (h' : KeyOf L X') :
    (∀ c r, finalFixed X.ops c r = finalFixed X'.ops c r) ∧ (∀ s r, finalSelector X.ops s r = finalSelector X'.ops s r) ∧
    (∀ a b, Op.copy a b ∈ X.ops ↔ Op.copy a b ∈ X'.ops) ∧ ∀ u, Fits X.ops u ↔ Fits X'.ops u := by
  have hs : List.Forall₂ SameBut X.ops X'.ops := by
    have h1 := h.ops
    have h2 := h'.ops
    rw [List.forall₂_iff_get] at h1 h2 ⊢
    exact ⟨h1.1.symm.trans h2.1, fun i a b => sameBut_of (h1.2 i (by rw [h1.1]; exact a) a) (h2.2 i (by rw [h1.1]; exact a) b)⟩
  generalize X.ops = a at hs
  generalize X'.ops = b at hs
  refine ⟨fun c r => ?_, fun s r => ?_, fun p q => ?_, fun u => ?_⟩
  · unfold finalFixed
    generalize (0 : F) = z
    induction hs generalizing z with
    | nil => rfl
    | cons h _ ih =>
      simp only [List.foldl_cons]
      rcases h with rfl | ⟨c, r, x, x', rfl, rfl⟩
      · exact ih _
      · exact ih _
  · unfold finalSelector
    induction hs with
    | nil => rfl
    | cons h _ ih =>
      rcases h with rfl | ⟨c, r, x, x', rfl, rfl⟩
      · simp only [List.any_cons, ih]
      · simp only [List.any_cons, ih]
  · induction hs with
    | nil => rfl
    | cons h _ ih =>
      rcases h with rfl | ⟨c, r, x, x', rfl, rfl⟩
      · simp only [List.mem_cons, ih]
      · simp only [List.mem_cons, ih, reduceCtorEq, false_or]
  · unfold Fits
    induction hs with
    | nil => rfl
    | cons h _ ih =>
      rcases h with rfl | ⟨c, r, x, x', rfl, rfl⟩
      · simp only [List.forall_mem_cons, ih]
      · rw [List.forall_mem_cons, List.forall_mem_cons, ih]; rfl

/-- **C79**, one key for all messages: with the parameters of C75, the circuit without witnesses is laid out without panic.
With the key made from it, on any number of rows that suffices, an accepted assignment with `m` in the cells of the
message and `y` in the cell of the output exists iff `y` is the native hash of `m`. -/
theorem C79_proves (fr pr : ℕ) (mds mi : Base.Mds F (t + 1)) (rc : List (Base.State F (t + 1)))
    (hrc : fr + pr ≤ rc.length) (hinv : Matrix.of mds * Matrix.of mi = 1) (hev : fr % 2 = 0) (hpr : 2 ≤ pr)
    (ht : 0 < t) {n : ℕ} (hn : 0 < n) (hnt : n ≤ t + 1) (w : HashWitness F n) :
    ∃ cs L, hashCircuitValues (gadgetParams fr pr mds mi rc) w.withoutWitnesses = .ok (cs, L) ∧ (∃ X, KeyOf L X) ∧
      ∀ X, KeyOf L X → ∀ N u, hashRows fr pr t n ≤ u → u ≤ N → ∀ (m : Fin n → F) (y : F),
        (∃ g : Grid F, g.n = N ∧ g.usable = u ∧ InstanceOf g X.ops Set.univ Set.univ ∧ cs.Holds g ∧
          (∀ i : Fin n, g.advice i 0 = m i) ∧ g.advice 0 (hashRows fr pr t n - 1) = y) ↔
        nativeConstHash fr pr mds rc (List.ofFn m) = .ok y := by
  have main := C75_hash fr pr mds mi rc hrc hinv hev hpr ht hn hnt
  have key := C79_circuit (gadgetParams fr pr mds mi rc) w.withoutWitnesses
  obtain ⟨cs, X₀, e₀, -⟩ := main 0 0
  obtain ⟨cs', L, e⟩ : ∃ cs L, hashCircuitValues (gadgetParams fr pr mds mi rc) w.withoutWitnesses = .ok (cs, L) := by
    cases h : hashCircuitValues (gadgetParams fr pr mds mi rc) w.withoutWitnesses with
    | error e => rw [((key 0 0).1 e).mp h] at e₀; cases e₀
    | ok u => exact ⟨_, _, rfl⟩
  obtain ⟨X₁, e₁, k₁⟩ := (key 0 0).2 _ _ e
  refine ⟨cs', L, e, ⟨X₁, k₁⟩, fun X hX N u hu huN m y => ?_⟩
  obtain ⟨X', e', k'⟩ := (key m y).2 _ _ e
  obtain ⟨hf, hsel, hcp, -⟩ := C79_key hX k'
  obtain ⟨cs'', X'', e'', h1, -, h3, h4, -⟩ := main m y
  rw [e'] at e''
  injection e'' with e''
  injection e'' with ec eX
  subst ec eX
  constructor
  · rintro ⟨g, rfl, rfl, hg, hH, hm, hy⟩
    have := h3 g ⟨hg.usable_le, fun c _ r hr => by rw [hg.fixed c trivial r hr, hf],
      fun s _ r hr => by rw [hg.selector s trivial r hr, hsel], fun a b hab => hg.copies a b ((hcp a b).mpr hab)⟩
      (hu.trans hg.usable_le) hH
    rw [hy] at this
    rw [← this]
    congr 2
    funext i; exact (hm i).symm
  · intro hd
    obtain ⟨g, hg⟩ : ∃ g : Grid F, g = ⟨N, u, finalAdvice X'.ops, finalFixed X'.ops, finalSelector X'.ops⟩ := ⟨_, rfl⟩
    have hon : HonestFor g X'.ops Set.univ Set.univ Set.univ := by
      rw [hg]; exact ⟨huN, fun _ _ _ _ => rfl, fun _ _ _ _ => rfl, fun _ _ _ _ => rfl⟩
    obtain ⟨h5, h6, h7, h8⟩ := h4 g hon (by rw [hg]; exact hu)
    refine ⟨g, by rw [hg], by rw [hg], ⟨hon.usable_le, fun c _ r hr => by rw [hon.fixed c trivial r hr, hf],
      fun s _ r hr => by rw [hon.selector s trivial r hr, hsel], fun a b hab => h8.mpr hd a b ((hcp a b).mp hab)⟩, h5, h6, h7⟩

/-- **C79**, the tests: for `P128Pow5T3<Fp>` over Pallas and messages of one, two or three words, with the key of the circuit
without witnesses and the `k` of the tests, the accepted pairs are those of the native hash of either build. -/
theorem C79_pasta (short : Bool) {n : ℕ} (hn : 0 < n) (hn3 : n ≤ 3) :
    ∃ cs L, hashCircuitValues (gadgetParams 8 56 Base.Pasta.mds Base.Pasta.mdsInv Base.Pasta.roundConstants)
        (⟨none, none⟩ : HashWitness Base.Pasta.Fp n) = .ok (cs, L) ∧ (∃ X, KeyOf L X) ∧
      ∀ X, KeyOf L X → ∀ (m : Fin n → Base.Pasta.Fp) (y : Base.Pasta.Fp),
        (∃ g : Grid Base.Pasta.Fp, g.n = 2 ^ (if n = 3 then 7 else 6) ∧ g.usable = g.n - 6 ∧
          InstanceOf g X.ops Set.univ Set.univ ∧ cs.Holds g ∧ (∀ i : Fin n, g.advice i 0 = m i) ∧
          g.advice 0 (if n = 3 then 82 else 42) = y) ↔ Base.Pasta.hashFp short m = .ok y := by
  obtain ⟨cs, L, e, h1, h2⟩ := C79_proves 8 56 Base.Pasta.mds Base.Pasta.mdsInv Base.Pasta.roundConstants
    (by rw [Base.Pasta.roundConstants_length]) Base.Pasta.mds_mul_mdsInv (by norm_num) (by norm_num) (by norm_num)
    hn hn3 ⟨none, none⟩
  have hr : hashRows 8 56 2 n = if n = 3 then 83 else 43 := by
    have : n = 1 ∨ n = 2 ∨ n = 3 := by omega
    rcases this with rfl | rfl | rfl <;> simp [hashRows, permRows]
  refine ⟨cs, L, e, h1, fun X hX m y => ?_⟩
  have := h2 X hX (2 ^ (if n = 3 then 7 else 6)) (2 ^ (if n = 3 then 7 else 6) - 6)
    (by rw [hr]; split_ifs <;> norm_num) (Nat.sub_le _ _) m y
  rw [← pasta_native short, ← this]
  have h83 : hashRows 8 56 2 n - 1 = if n = 3 then 82 else 42 := by rw [hr]; split_ifs <;> rfl
  rw [h83]
  refine exists_congr fun g => ?_
  constructor
  · rintro ⟨a, b, c⟩; exact ⟨a, by rw [b, a], c⟩
  · rintro ⟨a, b, c⟩; exact ⟨a, by rw [b, a], c⟩

-- width 2 over the rationals: one key, made without witnesses, with an accepted assignment for the message `11, 12` and
-- its hash, and for the message `13, 14` and its hash, but with none for `11, 12` and another output
example : ∃ (cs : CS ℚ) (L : Layouter (Value ℚ)) (X : Layouter ℚ) (y z : ℚ),
    hashCircuitValues (gadgetParams 2 3 gxMds gxInv gxRc) (⟨none, none⟩ : HashWitness ℚ 2) = .ok (cs, L) ∧ KeyOf L X ∧
    let Accepts := fun (m : Fin 2 → ℚ) (d : ℚ) => ∃ g : Grid ℚ, g.n = 64 ∧ g.usable = 58 ∧
      InstanceOf g X.ops Set.univ Set.univ ∧ cs.Holds g ∧ (∀ i : Fin 2, g.advice i 0 = m i) ∧
      g.advice 0 (hashRows 2 3 1 2 - 1) = d
    Accepts ![11, 12] y ∧ Accepts ![13, 14] z ∧ ¬ Accepts ![11, 12] (y + 1) := by
  have hinv : Matrix.of gxMds * Matrix.of gxInv = 1 := by
    ext i j
    fin_cases i <;> fin_cases j <;> norm_num [gxMds, gxInv, Matrix.mul_apply, Fin.sum_univ_succ]
  obtain ⟨cs, L, e, ⟨X, hX⟩, h⟩ := C79_proves 2 3 gxMds gxInv gxRc (by simp [gxRc]) hinv (by norm_num) (by norm_num)
    (by norm_num) (n := 2) (by norm_num) (by norm_num) ⟨none, none⟩
  have hd : ∀ m : Fin 2 → ℚ, ∃ y, nativeConstHash 2 3 gxMds gxRc (List.ofFn m) = .ok y := by
    intro m
    unfold nativeConstHash
    rw [C10_constant_length (by norm_num) (by norm_num), if_neg (by simp)]
    exact ⟨_, rfl⟩
  obtain ⟨y, hy⟩ := hd ![11, 12]
  obtain ⟨z, hz⟩ := hd ![13, 14]
  have key := h X hX 64 58 (by simp [hashRows, permRows]) (by norm_num)
  refine ⟨cs, L, X, y, z, e, hX, (key _ _).mpr hy, (key _ _).mpr hz, fun hn => ?_⟩
  have := (key _ _).mp hn
  rw [hy, Except.ok.injEq] at this
  simp at this

-- the same panic with and without witnesses: three words do not fit the two columns of the state
example : hashCircuitValues (gadgetParams 2 3 gxMds gxInv gxRc) (⟨none, none⟩ : HashWitness ℚ 3) = .error .index :=
  ((C79_circuit _ ⟨none, none⟩ ![1, 2, 3] 0).1 _).mpr ((C75_panics _ _ _).2.1 ⟨rfl, by norm_num⟩ (by norm_num))

-- a key with two layouts that differ in a witness
example : ∃ (L : Layouter (Value ℚ)) (X X' : Layouter ℚ), KeyOf L X ∧ KeyOf L X' ∧ X.ops ≠ X'.ops ∧
    finalFixed X'.ops 0 0 = 7 := by
  refine ⟨⟨fun _ => 1, none, [.fixed 0 0 (some 7), .advice 0 0 none]⟩, ⟨fun _ => 1, none, [.fixed 0 0 7, .advice 0 0 1]⟩,
    ⟨fun _ => 1, none, [.fixed 0 0 7, .advice 0 0 2]⟩, ⟨rfl, rfl, ?_⟩, ⟨rfl, rfl, ?_⟩, by simp, by simp [finalFixed]⟩ <;>
    exact .cons (Or.inl rfl) (.cons (Or.inr ⟨_, _, _, _, rfl, rfl⟩) .nil)

end Props
