import Verif.Props.Gadget
import Verif.Base.Bn256Eval
import Verif.Props.Bn254

/-!
# The in-circuit sponge used directly: C52
-/

set_option linter.unusedVariables false

open Halo2 Circuit

namespace Props

variable {F : Type} [Field F] {t : ℕ}

/-- `Sponge::new`, a loop of `absorb`, `finish_absorbing` and `n` calls of `squeeze` (poseidon.rs:191-280), for a
domain with initial capacity `cap`. The words to absorb are given in advance. -/
def spongeRun (S : Pow5.Params F t) (c : Pow5.Config F t) (cap : F) (L : Layouter F)
    (ws : List (Pow5.PaddedWord F)) (n : ℕ) : Except Panic (List (ACell F) × Layouter F) := do
  let (s, L) ← Gadget.Sponge.new c cap L
  let (s, L) ← s.absorbAll S c L ws
  let (s, L) ← s.finishAbsorbing S c L
  let (outs, _, L) ← Gadget.squeezeMany S c n L s
  return (outs, L)

/-- The content of a word given to `absorb`. -/
def wordValue (ev : ACell F → F) : Pow5.PaddedWord F → F
  | .message a => ev a
  | .padding v => v

/-- The `k`-th output of the textbook sponge of rate `t` and width `t + 1` with initial capacity `cap`. -/
def spongeOutput (π : (Fin (t + 1) → F) → Fin (t + 1) → F) (cap : F) (ws : List F) (k : ℕ) : F :=
  π^[k / t] (Spec.absorbBlocks π 0 t ws (fun i => if i.val = t then cap else 0)) (Fin.ofNat (t + 1) (k % t))

omit [Field F] in
private theorem pv_eq : (Gadget.pv : (ACell F → F) → _) = wordValue := by
  funext ev p
  cases p <;> rfl

open Gadget in
private theorem squeezeMany_ok (S : Pow5.Params F t) (cols : Pow5.Cols t) (σ kc : ℕ)
    (hinv : Matrix.of S.mReg * Matrix.of S.mInv = 1) (hd : cols.Distinct) (ht : 0 < t) (n : ℕ) :
    ∀ (L : Layouter F) (gs : Sponge F (SMode F t) t),
    ∃ xs gs' L' log, squeezeMany S (Pow5.config S cols σ) n L gs = .ok (xs, gs', L') ∧ xs.length = n ∧
      Ext S cols σ kc L L' log ∧
      (∀ ev, Eval S cols σ log ev → ∀ bs, RelS ev gs bs → ∃ bs',
        Base.squeezeMany (Pow5.perm S) n bs = .ok (xs.map ev, bs')) ∧
      (∀ g, Holds g log → HonS g gs → CopiesHold g log ∧ ∀ x ∈ xs, True' g x) := by
  induction n with
  | zero =>
    intro L gs
    exact ⟨[], gs, L, [], rfl, rfl, Ext.refl S cols σ kc L, fun ev _ bs h => ⟨bs, rfl⟩,
      fun g _ _ => ⟨by intro a b hm; simp at hm, by simp⟩⟩
  | succ n ih =>
    intro L gs
    obtain ⟨x, gs₁, L₁, log₁, e₁, x₁, r₁, h₁⟩ := squeeze_ok S cols σ kc hinv hd ht L gs
    obtain ⟨xs, gs₂, L₂, log₂, e₂, hl, x₂, r₂, h₂⟩ := ih L₁ gs₁
    refine ⟨x :: xs, gs₂, L₂, log₁ ++ log₂, ?_, by simp [hl], x₁.trans x₂, ?_, ?_⟩
    · simp only [squeezeMany, e₁, e₂, bind, Except.bind, pure, Except.pure]
    · intro ev hev bs h
      obtain ⟨bs₁, b₁, q₁⟩ := r₁ ev (hev.mono fun o h => List.mem_append_left _ h) bs h
      obtain ⟨bs₂, b₂⟩ := r₂ ev (hev.mono fun o h => List.mem_append_right _ h) bs₁ q₁
      exact ⟨bs₂, by simp only [Base.squeezeMany, b₁, b₂, bind, Except.bind, pure, Except.pure, List.map_cons]⟩
    · intro g hH hon
      obtain ⟨c₁, t₁, u₁⟩ := h₁ g (hH.mono fun o h => List.mem_append_left _ h) hon
      obtain ⟨c₂, t₂⟩ := h₂ g (hH.mono fun o h => List.mem_append_right _ h) t₁
      refine ⟨fun a b hm => ?_, ?_⟩
      · rcases List.mem_append.mp hm with hm | hm
        · exact c₁ a b hm
        · exact c₂ a b hm
      · intro y hy
        rcases List.mem_cons.mp hy with rfl | hy
        · exact u₁
        · exact t₂ y hy

/-- The native sponge after a list of `absorb` calls. -/
private theorem absorbs (π : (Fin (t + 1) → F) → Fin (t + 1) → F) (ht : 0 < t) (m : List F) :
    ∀ (s : Base.State F (t + 1)) (p : List F), p.length ≤ t →
    ∃ s' p', m.foldlM (fun σ v => Base.Sponge.absorb (RATE := t) π σ v) (Base.spongeOf t 0 s p) =
      .ok (Base.spongeOf t 0 s' p') ∧ p'.length ≤ t ∧ p'.length % t = (p ++ m).length % t ∧
      (p' = [] ↔ p ++ m = []) := by
  induction m with
  | nil => intro s p hp; exact ⟨s, p, rfl, hp, by simp, by simp⟩
  | cons v m ih =>
    intro s p hp
    by_cases h : p.length < t
    · obtain ⟨s', p', e, h1, h2, h3⟩ := ih s (p ++ [v]) (by simp; omega)
      refine ⟨s', p', ?_, h1, by simpa using h2, by simpa using h3⟩
      rw [List.foldlM_cons, Base.absorb_lt π 0 s p v h]
      exact e
    · have hpt : p.length = t := by omega
      obtain ⟨s', p', e, h1, h2, h3⟩ := ih (π (Spec.addBlock 0 p s)) [v] (by simp; omega)
      refine ⟨s', p', ?_, h1, ?_, by simpa using h3⟩
      · rw [List.foldlM_cons, Base.absorb_eq π 0 s p v hpt ht (by omega)]
        exact e
      · rw [h2]
        simp [hpt]

open Gadget in
private theorem absorb_part (S : Pow5.Params F t) (cols : Pow5.Cols t) (σ kc : ℕ)
    (hinv : Matrix.of S.mReg * Matrix.of S.mInv = 1) (hd : cols.Distinct) (ht : 0 < t)
    (cap : F) (L : Layouter F) (hL : L.constCol = some kc) (ws : List (Pow5.PaddedWord F)) :
    ∃ gs₁ L₁ gs₂ L₂ log, Gadget.Sponge.new (Pow5.config S cols σ) cap L = .ok (gs₁, L₁) ∧
      gs₁.absorbAll S (Pow5.config S cols σ) L₁ ws = .ok (gs₂, L₂) ∧ Ext S cols σ kc L L₂ log ∧
      (∀ ev, Eval S cols σ log ev → ∃ bs,
        ((ws.map (wordValue ev)).foldlM (fun s v => Base.Sponge.absorb (Pow5.perm S) s v)
          (Base.spongeOf t 0 (fun i => if i.val = t then cap else 0) [])) = .ok bs ∧ Rel ev gs₂ bs) ∧
      (∀ g, Holds g log → (∀ v ∈ ws, InTrue g v) → CopiesHold g log ∧ Hon g gs₂) := by
  obtain ⟨w, L₁, log₁, e₁, x₁, v₁, h₁⟩ := initial_ok S cols σ kc hd cap L hL
  obtain ⟨gs₂, L₂, log₂, e₂, x₂, r₂, h₂⟩ := absorbAll_ok S cols σ kc hinv hd ht ws L₁ ⟨fun _ => none, w⟩
  refine ⟨⟨fun _ => none, w⟩, L₁, gs₂, L₂, log₁ ++ log₂, ?_, e₂, x₁.trans x₂, ?_, ?_⟩
  · simp only [Sponge.new, e₁, bind, Except.bind, pure, Except.pure]
  · intro ev hev
    have hinit : Rel ev (⟨fun _ => none, w⟩ : Sponge F (AMode F t) t)
        (Base.spongeOf t 0 (fun i => if i.val = t then cap else 0) []) := by
      refine ⟨rfl, fun i => ?_, fun k => rfl⟩
      rw [v₁ ev (hev.mono fun o h => List.mem_append_left _ h) i]
      simp only [start, Base.spongeOf, Fin.ext_iff, Fin.val_last]
    have := r₂ ev (hev.mono fun o h => List.mem_append_right _ h) _ hinit
    rwa [pv_eq] at this
  · intro g hH hin
    obtain ⟨c₁, t₁⟩ := h₁ g (hH.mono fun o h => List.mem_append_left _ h)
    obtain ⟨c₂, t₂⟩ := h₂ g (hH.mono fun o h => List.mem_append_right _ h) ⟨t₁, by intro k p h; cases h⟩ hin
    refine ⟨fun a b hm => ?_, t₂⟩
    rcases List.mem_append.mp hm with hm | hm
    · exact c₁ a b hm
    · exact c₂ a b hm

open Gadget in
private theorem run_ok (S : Pow5.Params F t) (cols : Pow5.Cols t) (σ kc : ℕ)
    (hinv : Matrix.of S.mReg * Matrix.of S.mInv = 1) (hd : cols.Distinct) (ht : 0 < t)
    (cap : F) (L : Layouter F) (hL : L.constCol = some kc) (ws : List (Pow5.PaddedWord F)) (hne : ws ≠ [])
    (hmod : ws.length % t = 0) (n : ℕ) :
    ∃ outs L' log, spongeRun S (Pow5.config S cols σ) cap L ws n = .ok (outs, L') ∧ outs.length = n ∧
      Ext S cols σ kc L L' log ∧
      (∀ ev, Eval S cols σ log ev → outs.map ev =
        (List.range n).map (spongeOutput (Pow5.perm S) cap (ws.map (wordValue ev)))) ∧
      (∀ g, Holds g log → (∀ v ∈ ws, InTrue g v) → CopiesHold g log ∧ ∀ x ∈ outs, True' g x) := by
  obtain ⟨gs₁, L₁, gs₂, L₂, log₂, e₁, e₂, x₂, r₂, h₂⟩ := absorb_part S cols σ kc hinv hd ht cap L hL ws
  have hfin : ∀ ev, ∃ fin, (do
      let σ ← (ws.map (wordValue ev)).foldlM (fun σ v => Base.Sponge.absorb (Pow5.perm S) σ v)
        (Base.spongeOf t 0 (fun i : Fin (t + 1) => if i.val = t then cap else 0) [])
      Base.Sponge.finishAbsorbing (Pow5.perm S) σ) = .ok fin ∧
      fin.state = Spec.absorbBlocks (Pow5.perm S) 0 t (ws.map (wordValue ev)) (fun i => if i.val = t then cap else 0) := by
    intro ev
    have := Base.absorb_finish (T := t + 1) (RATE := t) (Pow5.perm S) 0 (ws.map (wordValue ev)) []
      (fun i => if i.val = t then cap else 0) ht (by omega) (by simp) (by simp [hne]) (by simpa using hmod)
    exact ⟨_, this, rfl⟩
  have hfull : ∀ k, (gs₂.mode k).isSome := by
    intro k
    by_contra hk
    have hk : gs₂.mode k = none := by simpa [Option.isSome_iff_ne_none] using hk
    obtain ⟨bs, hb, hrel⟩ := r₂ ACell.value (Or.inl rfl)
    have hbk : bs.mode.val k = none := by rw [← hrel.mode k, hk]; rfl
    have := Gadget.base_gap (Pow5.perm S) bs hrel.layout k hbk
    obtain ⟨fin, hf, -⟩ := hfin ACell.value
    rw [hb] at hf
    simp only [bind, Except.bind, this] at hf
    cases hf
  obtain ⟨gs₃, L₃, log₃, e₃, x₃, r₃, h₃⟩ := finish_ok S cols σ kc hinv hd L₂ gs₂ hfull
  obtain ⟨xs, gs₄, L₄, log₄, e₄, hl, x₄, r₄, h₄⟩ := squeezeMany_ok S cols σ kc hinv hd ht n L₃ gs₃
  refine ⟨xs, L₄, log₂ ++ log₃ ++ log₄, ?_, hl, (x₂.trans x₃).trans x₄, ?_, ?_⟩
  · simp only [spongeRun, e₁, e₂, e₃, e₄, bind, Except.bind, pure, Except.pure]
  · intro ev hev
    obtain ⟨bs, hb, hrel⟩ := r₂ ev (hev.mono fun o h => by simp [h])
    obtain ⟨bs₃, b₃, q₃⟩ := r₃ ev (hev.mono fun o h => by simp [h]) bs hrel
    obtain ⟨bs₄, b₄⟩ := r₄ ev (hev.mono fun o h => by simp [h]) bs₃ q₃
    obtain ⟨fin, hf, hst⟩ := hfin ev
    rw [hb] at hf
    simp only [bind, Except.bind, b₃, Except.ok.injEq] at hf
    subst hf
    obtain ⟨q, hq⟩ := C12_squeeze_order ht (Nat.le_succ t) (Pow5.perm S) bs bs₃ b₃ n
    rw [b₄] at hq
    simp only [Except.ok.injEq, Prod.mk.injEq] at hq
    rw [hq.1, hst]
    apply List.map_congr_left
    intro k _
    simp only [spongeOutput]
    refine congrArg _ (Fin.ext ?_)
    simp only [Fin.val_ofNat]
    exact (Nat.mod_eq_of_lt ((Nat.mod_lt k ht).trans (Nat.lt_succ_self t))).symm
  · intro g hH hin
    obtain ⟨c₂, t₂⟩ := h₂ g (hH.mono fun o h => by simp [h]) hin
    obtain ⟨c₃, t₃⟩ := h₃ g (hH.mono fun o h => by simp [h]) t₂
    obtain ⟨c₄, t₄⟩ := h₄ g (hH.mono fun o h => by simp [h]) t₃
    refine ⟨fun a b hm => ?_, t₄⟩
    simp only [List.mem_append] at hm
    rcases hm with (hm | hm) | hm
    · exact c₂ a b hm
    · exact c₃ a b hm
    · exact c₄ a b hm

/-- **C52.** The in-circuit sponge as a duplex object, for any domain (any initial capacity), width and round
numbers: absorbing a positive multiple of `RATE` words, each a cell or a constant padding word, and squeezing
any number of words succeeds on any layouter as in C45; the `k`-th word returned is word `k mod RATE` of the
textbook state after `k / RATE` further permutations, for the honest values and for every accepted grid; the
honest grid satisfies all gates and copy constraints. -/
theorem C52_gadget_sponge (fr pr : ℕ) (mds mi : Base.Mds F (t + 1)) (rc : List (Base.State F (t + 1)))
    (hrc : fr + pr ≤ rc.length) (hinv : Matrix.of mds * Matrix.of mi = 1)
    (cols : Pow5.Cols t) (hd : cols.Distinct) (cs cs' : CS F) (c : Pow5.Config F t)
    (hcfg : Pow5.configureChecked (gadgetParams fr pr mds mi rc) cols cs = .ok (c, cs'))
    (L : Layouter F) (kc : ℕ) (hconst : L.constCol = some kc)
    (hL : L.Good (Gadget.OwnCols cols kc)) (cap : F)
    (ws : List (Pow5.PaddedWord F)) (hne : ws ≠ []) (hmod : ws.length % t = 0) (n : ℕ)
    (π : (Fin (t + 1) → F) → Fin (t + 1) → F)
    (hπ : π = Spec.poseidon (fun x => x ^ 5) (Matrix.of mds) (fr / 2) pr fun r => rc.getD r 0) :
    ∃ outs L' log, spongeRun (gadgetParams fr pr mds mi rc) c cap L ws n = .ok (outs, L') ∧
      L'.ops = L.ops ++ log ∧ L'.Good (Gadget.OwnCols cols kc) ∧ outs.length = n ∧
      outs.map ACell.value = (List.range n).map (spongeOutput π cap (ws.map (wordValue ACell.value))) ∧
      ∀ (post : List (Op F)) (g : Grid F), Later cols kc L' post →
        (InstanceOf g (L'.ops ++ post) {k | RCol.fixed k ∈ Gadget.OwnCols cols kc}
            {k | cs.numSelectors ≤ k ∧ k < cs'.numSelectors} →
          Fits log g.n → (∀ p ∈ cs'.gates, p.Holds g) →
          outs.map (fun x => g.cell x.cell) =
            (List.range n).map (spongeOutput π cap (ws.map (wordValue fun a => g.cell a.cell)))) ∧
        ((∀ o ∈ L.ops ++ post, ∀ k r, o = .selector k r →
            ¬ (cs.numSelectors ≤ k ∧ k < cs'.numSelectors)) →
          HonestFor g (L'.ops ++ post) {k | RCol.fixed k ∈ Gadget.OwnCols cols kc}
            {k | cs.numSelectors ≤ k ∧ k < cs'.numSelectors} {k | cols.IsAdvice k} →
          Fits log g.usable →
          (∀ p ∈ cs'.gates, p ∈ cs.gates ∨ p.Holds g) ∧
          ((∀ a, Pow5.PaddedWord.message a ∈ ws → g.cell a.cell = a.value) →
            CopiesHold g log ∧ ∀ x ∈ outs, g.cell x.cell = x.value)) := by
  obtain ⟨S, hS⟩ : ∃ S, S = gadgetParams fr pr mds mi rc := ⟨_, rfl⟩
  rw [← hS] at hcfg ⊢
  obtain ⟨hev, ht, rfl, rfl⟩ := configure_ok hcfg
  have hinv' : Matrix.of S.mReg * Matrix.of S.mInv = 1 := by rw [hS]; exact hinv
  have hperm : Pow5.perm S = π := by rw [hπ, hS]; rfl
  obtain ⟨outs, L', log, e, hlen, hx, hv, hh⟩ := run_ok S cols cs.numSelectors kc hinv' hd ht cap L hconst ws
    hne hmod n
  rw [hperm] at hv
  refine ⟨outs, L', log, e, hx.ops, hx.good hL, hlen, hv _ (Or.inl rfl), ?_⟩
  intro post g hp
  refine ⟨fun hg hfit hgates => ?_, fun hsel hg hfit => ?_⟩
  · have hacc := accepts_of hx hL hp hg hfit fun p hp => hgates p (List.mem_append_right _ hp)
    exact hv _ (Or.inr ⟨g, hacc, rfl⟩)
  · obtain ⟨h1, h2⟩ := holds_of hinv' hx hL hp hsel hg hfit
    refine ⟨fun p hp => ?_, fun hin => ?_⟩
    · rcases List.mem_append.mp hp with h | h
      · exact Or.inl h
      · exact Or.inr (h2 p h)
    · refine hh g h1 fun v hv => ?_
      cases v with
      | message a => exact hin a hv
      | padding v => trivial

/-- **C52** (the other case). Finishing after no word, or after a number of words that is not a multiple of
`RATE`, panics. -/
theorem C52_gadget_unpadded (S : Pow5.Params F t) (hinv : Matrix.of S.mReg * Matrix.of S.mInv = 1)
    (cols : Pow5.Cols t) (hd : cols.Distinct) (cs cs' : CS F) (c : Pow5.Config F t)
    (hcfg : Pow5.configureChecked S cols cs = .ok (c, cs')) (L : Layouter F) (kc : ℕ)
    (hconst : L.constCol = some kc) (cap : F) (ws : List (Pow5.PaddedWord F))
    (hws : ws = [] ∨ ws.length % t ≠ 0) (n : ℕ) :
    spongeRun S c cap L ws n = .error .notPadded := by
  obtain ⟨hev, ht, rfl, rfl⟩ := configure_ok hcfg
  obtain ⟨gs₁, L₁, gs₂, L₂, log₂, e₁, e₂, x₂, r₂, h₂⟩ := absorb_part S cols cs.numSelectors kc hinv hd ht cap L
    hconst ws
  obtain ⟨bs, hb, hrel⟩ := r₂ ACell.value (Or.inl rfl)
  obtain ⟨s', p', e, h1, h3, h4⟩ := absorbs (Pow5.perm S) ht (ws.map (wordValue ACell.value))
    (fun i => if i.val = t then cap else 0) [] (by simp)
  have hlt : p'.length < t := by
    rcases hws with h | h
    · rw [(h4.mpr (by simp [h]))]; simpa using ht
    · simp only [List.nil_append, List.length_map] at h3
      rcases Nat.lt_or_eq_of_le h1 with h' | h'
      · exact h'
      · rw [h', Nat.mod_self] at h3; omega
  rw [e] at hb
  simp only [Except.ok.injEq] at hb
  subst hb
  have hk : gs₂.mode ⟨p'.length, hlt⟩ = none := by
    have := hrel.mode ⟨p'.length, hlt⟩
    simpa [Base.spongeOf, Base.modeOf] using this
  have hf := Gadget.finish_gap S cols cs.numSelectors L₂ gs₂ _ hk
  simp only [spongeRun, e₁, e₂, hf, bind, Except.bind]

/-- Non-vacuity of C52, on the layouter of the example of C45: absorb two cells and a padding word, squeeze
three words; and the panic after no word. -/
example : ∃ c cs', Pow5.configureChecked (gadgetParams 2 3 gxMds gxInv gxRc) gxCols gxCs = .ok (c, cs') ∧
    (∃ outs L', spongeRun (gadgetParams 2 3 gxMds gxInv gxRc) c 5 gxL
        [.message gxA, .padding 7, .message gxB] 3 = .ok (outs, L') ∧
      outs.map ACell.value = (List.range 3).map (spongeOutput (Spec.poseidon (fun x => x ^ 5) (Matrix.of gxMds) 1 3
        fun r => gxRc.getD r 0) 5 [11, 7, 12])) ∧
    spongeRun (gadgetParams 2 3 gxMds gxInv gxRc) c 5 gxL [] 3 = .error .notPadded := by
  have hd : gxCols.Distinct := by
    constructor <;> simp [gxCols, Function.Injective, Fin.forall_fin_two]
  have hinv : Matrix.of gxMds * Matrix.of gxInv = 1 := by
    ext i j
    fin_cases i <;> fin_cases j <;> norm_num [gxMds, gxInv, Matrix.mul_apply, Fin.sum_univ_succ]
  obtain ⟨c, cs', hcfg⟩ : ∃ c cs',
      Pow5.configureChecked (gadgetParams 2 3 gxMds gxInv gxRc) gxCols gxCs = .ok (c, cs') := by
    unfold Pow5.configureChecked
    rw [if_pos (by simp [gadgetParams]), Pow5.configure_eq]
    exact ⟨_, _, rfl⟩
  have hG : gxL.Good (Gadget.OwnCols gxCols 0) := by
    constructor
    · intro o ho k hk r h
      simp only [gxL, List.mem_cons, List.not_mem_nil, or_false] at ho
      rcases ho with rfl | rfl <;> · simp only [Op.Hits] at h; simp [gxL, h.2]
    · intro o ho o' ho' k hk r h h'
      simp only [gxL, List.mem_cons, List.not_mem_nil, or_false] at ho ho'
      rcases ho with rfl | rfl <;> rcases ho' with rfl | rfl <;>
        simp_all [Op.Hits, Op.payload]
  refine ⟨c, cs', hcfg, ?_, C52_gadget_unpadded _ hinv gxCols hd gxCs cs' c hcfg gxL 0 rfl 5 [] (Or.inl rfl) 3⟩
  obtain ⟨outs, L', log, e, -, -, -, hv, -⟩ := C52_gadget_sponge 2 3 gxMds gxInv gxRc (by simp [gxRc]) hinv gxCols hd
    gxCs cs' c hcfg gxL 0 rfl hG 5 [.message gxA, .padding 7, .message gxB] (by simp) (by simp) 3 _ rfl
  exact ⟨outs, L', e, hv⟩

open Base.Bn256 in
/-- Finding: the in-circuit sponge never reads `Domain::layout`. For the iden3 domains, whose layout puts the
message in words 1 and 2 and the capacity in word 0, it does not compute the native hash: over BN254, the sponge for
`ConstantLengthIden3<2>` returns for the cells of the message `[1, 2]` another value than the native
`Hash::<_, _, ConstantLengthIden3<2>, 3, 2>` (which is `hash_with_domain([1, 2], 0)`). -/
theorem C52_layout_ignored (mi : Base.Mds Fr 3) (hinv : Matrix.of mds * Matrix.of mi = 1)
    (cols : Pow5.Cols 2) (hd : cols.Distinct) (cs cs' : CS Fr) (c : Pow5.Config Fr 2)
    (hcfg : Pow5.configureChecked (gadgetParams 8 57 mds mi roundConstants) cols cs = .ok (c, cs'))
    (L : Layouter Fr) (kc : ℕ) (hconst : L.constCol = some kc) (hL : L.Good (Gadget.OwnCols cols kc))
    (a b : ACell Fr) (ha : a.value = 1) (hb : b.value = 2) :
    ∃ x L' y, spongeRun (gadgetParams 8 57 mds mi roundConstants) c
        ((Base.DomainKind.constantLengthIden3 2).initialCapacity) L [.message a, .message b] 1 = .ok ([x], L') ∧
      Base.Hash.hashIden3 (Base.permute (Base.p128Pow5T3 57) mds roundConstants)
        (Base.Hash.init (T := 3) (RATE := 2) (.constantLengthIden3 2)) ![a.value, b.value] 0 = .ok y ∧
      x.value ≠ y := by
  obtain ⟨outs, L', log, e, -, -, hlen, hv, -⟩ := C52_gadget_sponge 8 57 mds mi roundConstants
    (by rw [roundConstants_length]) hinv cols hd cs cs' c hcfg L kc hconst hL
    ((Base.DomainKind.constantLengthIden3 2).initialCapacity) [.message a, .message b] (by simp) (by simp) 1 specPerm rfl
  obtain ⟨x, rfl⟩ := List.length_eq_one_iff.mp hlen
  have hp : Base.permute (Base.p128Pow5T3 57) mds roundConstants = specPerm := by
    funext s
    exact C01_permute_textbook (Base.p128Pow5T3 57) mds roundConstants (by rw [roundConstants_length]; rfl) s
  refine ⟨x, L', specPerm ![0, a.value, b.value] 0, e, ?_, ?_⟩
  · rw [hp]
    exact (C04_hash_with_domain specPerm a.value b.value 0).1
  · have hx : x.value = specPerm ![a.value, b.value, 0] 0 := by
      have := List.head_eq_of_cons_eq hv
      rw [this]
      simp only [spongeOutput]
      generalize specPerm = π
      simp only [Nat.zero_div, Function.iterate_zero, id_eq, List.map_cons, List.map_nil, wordValue]
      rw [Spec.absorbBlocks, dif_neg (by simp), Spec.absorbBlocks, dif_pos (by simp)]
      refine congrArg (fun s : Base.State Fr 3 => π s 0) ?_
      funext i
      match i with
      | 0 => simp [Spec.addBlock]
      | 1 => simp [Spec.addBlock]
      | 2 => simp [Spec.addBlock, Base.DomainKind.initialCapacity]
    rw [hx, ha, hb]
    have e1 := natPerm_cast 1 2 0
    have e2 := natPerm_cast 0 1 2
    simp only [Nat.cast_one, Nat.cast_ofNat, Nat.cast_zero] at e1 e2
    rw [e1, e2]
    simp only [toState, Matrix.cons_val_zero]
    intro h
    have := (ZMod.natCast_eq_natCast_iff' _ _ _).mp h
    revert this
    decide +kernel

open Base.Bn256 in
/-- The hypotheses of `C52_layout_ignored` are met: eleven columns in order, two message cells in the state columns. -/
example : ∃ (mi : Base.Mds Fr 3) (cols : Pow5.Cols 2) (cs cs' : CS Fr) (c : Pow5.Config Fr 2) (L : Layouter Fr) (kc : ℕ),
    Matrix.of mds * Matrix.of mi = 1 ∧ cols.Distinct ∧
    Pow5.configureChecked (gadgetParams 8 57 mds mi roundConstants) cols cs = .ok (c, cs') ∧
    L.constCol = some kc ∧ L.Good (Gadget.OwnCols cols kc) := by
  obtain ⟨mi, -, hmi, -⟩ := C20_bn254_mds_inv
  obtain ⟨c, cs', hcfg⟩ : ∃ c cs', Pow5.configureChecked (gadgetParams 8 57 mds mi roundConstants)
      ⟨![0, 1, 2], 3, ![0, 1, 2], ![3, 4, 5]⟩ ⟨4, 6, 0, [], [], []⟩ = .ok (c, cs') := by
    unfold Pow5.configureChecked
    rw [if_pos (by simp [gadgetParams]), Pow5.configure_eq]
    exact ⟨_, _, rfl⟩
  refine ⟨mi, ⟨![0, 1, 2], 3, ![0, 1, 2], ![3, 4, 5]⟩, ⟨4, 6, 0, [], [], []⟩, cs', c,
    ⟨fun _ => 1, some 3, [.advice 0 0 1, .advice 1 0 2]⟩, 3, hmi, ?_, hcfg, rfl, ?_⟩
  · constructor <;> decide
  · constructor
    · intro o ho k hk r h
      simp only [List.mem_cons, List.not_mem_nil, or_false] at ho
      rcases ho with rfl | rfl <;> · simp only [Op.Hits] at h; simp [h.2]
    · intro o ho o' ho' k hk r h h'
      simp only [List.mem_cons, List.not_mem_nil, or_false] at ho ho'
      rcases ho with rfl | rfl <;> rcases ho' with rfl | rfl <;>
        simp_all [Op.Hits, Op.payload]

end Props
