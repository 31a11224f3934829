import Verif.Circuit.GadgetSound
import Verif.Props.Native
import Verif.Props.Pow5

/-!
# Properties of the in-circuit sponge and hash gadget: C45
-/

set_option linter.unusedVariables false
set_option linter.unusedSectionVars false
set_option linter.unusedSimpArgs false

namespace Props
open Halo2 Circuit

variable {F : Type} [Field F] {t : ℕ}

/-- What `Pow5Chip` reads from a `Spec` with `fr` full and `pr` partial rounds and the constants
`(rc, mds, mi)`. -/
def gadgetParams (fr pr : ℕ) (mds mi : Base.Mds F (t + 1)) (rc : List (Base.State F (t + 1))) :
    Pow5.Params F t := ⟨fr, pr, fun r => rc.getD r 0, mds, mi⟩

/-- The native `Hash::<_, S, ConstantLength<L>, T, RATE>::init().hash(message)` for the same `Spec`. -/
def nativeConstHash (fr pr : ℕ) (mds : Base.Mds F (t + 1)) (rc : List (Base.State F (t + 1)))
    (m : List F) : Except Panic F :=
  Base.Hash.hashConst (RATE := t) (Base.permute ⟨fr, pr, Base.sboxPow⟩ mds rc)
    (Base.Hash.init (.constantLength m.length)) m.get

/-- A caller that hashes several messages with the gadget, one after the other; each message may use
the cells returned by earlier calls (as a Merkle tree does). -/
def hashAll (S : Pow5.Params F t) (c : Pow5.Config F t) :
    Layouter F → List (ACell F) → List (List (ACell F) → List (ACell F)) →
      Except Panic (List (ACell F) × Layouter F)
  | L, outs, [] => .ok (outs, L)
  | L, outs, f :: fs => do
    let (out, L) ← Gadget.hashCells S c L (f outs).get
    hashAll S c L (outs ++ [out]) fs

open Gadget in
/-- One hash. -/
theorem hash_ok (S : Pow5.Params F t) (cols : Pow5.Cols t) (σ kc : ℕ)
    (hinv : Matrix.of S.mReg * Matrix.of S.mInv = 1) (hd : cols.Distinct) (ht : 0 < t)
    (L : Layouter F) (hL : L.constCol = some kc) (m : List (ACell F)) (hm : m ≠ []) :
    ∃ x L' log, hashCells S (Pow5.config S cols σ) L m.get = .ok (x, L') ∧
      Ext S cols σ kc L L' log ∧
      (∀ ev, Eval S cols σ log ev →
        Base.Hash.hashConst (RATE := t) (T := t + 1) (Pow5.perm S)
          (Base.Hash.init (.constantLength (m.map ev).length)) (m.map ev).get = .ok (ev x)) ∧
      (∀ g, Holds g log → (∀ a ∈ m, g.cell a.cell = a.value) →
        CopiesHold g log ∧ g.cell x.cell = x.value) := by
  have hlen : 0 < m.length := List.length_pos_iff.mpr hm
  obtain ⟨w, L₁, log₁, e₁, x₁, v₁, h₁⟩ := initial_ok S cols σ kc hd
    ((Base.DomainKind.constantLength m.length).initialCapacity (F := F)) L hL
  have hpad : (Base.DomainKind.constantLength m.length).padding t m.length =
      .ok (List.replicate ((m.length + t - 1) / t * t - m.length) (0 : F)) := by
    simp [Base.DomainKind.padding, Base.DomainKind.padding.constPad, Nat.ne_of_gt ht]
  obtain ⟨pad, hpd⟩ : ∃ pad : List F, pad =
    List.replicate ((m.length + t - 1) / t * t - m.length) (0 : F) := ⟨_, rfl⟩
  rw [← hpd] at hpad
  obtain ⟨gs₂, L₂, log₂, e₂, x₂, r₂, h₂⟩ := absorbAll_ok S cols σ kc hinv hd ht
    (m.map Pow5.PaddedWord.message ++ pad.map Pow5.PaddedWord.padding) L₁ ⟨fun _ => none, w⟩
  -- the native sponge
  have hinit : ∀ ev, Eval S cols σ log₁ ev → Rel ev (⟨fun _ => none, w⟩ : Sponge F (AMode F t) t)
      (Base.Hash.init (T := t + 1) (RATE := t) (.constantLength m.length)) := by
    intro ev hev
    refine ⟨rfl, fun i => ?_, fun k => rfl⟩
    rw [v₁ ev hev i]
    show start _ i = Function.update (fun _ => (0 : F)) (Base.capIndex t 0) _ i
    simp only [start, Function.update_apply, Base.capIndex, Fin.ext_iff, Fin.val_last, add_zero,
      Nat.mod_eq_of_lt (Nat.lt_succ_self t)]
  have hnat : ∀ ev, Eval S cols σ log₁ ev → Eval S cols σ log₂ ev → ∃ bs,
      ((m.map ev ++ pad).foldlM (fun s v => Base.Sponge.absorb (Pow5.perm S) s v)
        (Base.Hash.init (T := t + 1) (RATE := t) (.constantLength m.length))) = .ok bs ∧
        Rel ev gs₂ bs := by
    intro ev hev₁ hev₂
    have := r₂ ev hev₂ _ (hinit ev hev₁)
    have e : (m.map Pow5.PaddedWord.message ++ pad.map Pow5.PaddedWord.padding).map (pv ev) =
        m.map ev ++ pad := by
      rw [List.map_append, List.map_map, List.map_map]
      congr 1
      exact List.map_id' pad
    rwa [e] at this
  have hok := Base.absorb_finish (T := t + 1) (RATE := t) (Pow5.perm S) 0 (m.map ACell.value ++ pad) []
    (Base.Hash.init (T := t + 1) (RATE := t) (.constantLength m.length)).state ht (by omega)
    (by simp) (by simp [hm]) (by
      simp only [List.nil_append, List.length_append, List.length_map, hpd, List.length_replicate]
      have h1 : m.length ≤ (m.length + t - 1) / t * t := by
        have := Nat.lt_div_mul_add (a := m.length + t - 1) ht
        omega
      rw [Nat.add_sub_cancel' h1, Nat.mul_mod_left])
  obtain ⟨bs, hb, hrel⟩ := hnat ACell.value (Or.inl rfl) (Or.inl rfl)
  have hfull : ∀ k, (gs₂.mode k).isSome := by
    intro k
    by_contra hk
    have hk : gs₂.mode k = none := by simpa [Option.isSome_iff_ne_none] using hk
    have hbk : bs.mode.val k = none := by rw [← hrel.mode k, hk]; rfl
    have := Gadget.base_gap (Pow5.perm S) bs hrel.layout k hbk
    have e : Base.spongeOf t 0 (Base.Hash.init (T := t + 1) (RATE := t)
        (.constantLength m.length) : Base.Hash F (t + 1) t).state [] =
        (Base.Hash.init (.constantLength m.length) : Base.Hash F (t + 1) t) := by
      simp only [Base.spongeOf, Base.Hash.init, Base.Sponge.new, Base.modeOf, List.getElem?_nil,
        Base.DomainKind.layout]
    rw [e, hb] at hok
    simp only [bind, Except.bind, this] at hok
    cases hok
  obtain ⟨gs₃, L₃, log₃, e₃, x₃, r₃, h₃⟩ := finish_ok S cols σ kc hinv hd L₂ gs₂ hfull
  obtain ⟨x, gs₄, L₄, log₄, e₄, x₄, r₄, h₄⟩ := squeeze_ok S cols σ kc hinv hd ht L₃ gs₃
  refine ⟨x, L₄, log₁ ++ log₂ ++ log₃ ++ log₄, ?_, ((x₁.trans x₂).trans x₃).trans x₄, ?_, ?_⟩
  · simp only [hashCells, Hash.init, Sponge.new, e₁, Hash.hash, hpad, List.ofFn_get, bind, Except.bind,
      pure, Except.pure]
    rw [e₂]
    simp only [e₃, e₄]
  · intro ev hev
    obtain ⟨bs, hb, hrel⟩ := hnat ev (hev.mono fun o h => by simp [h]) (hev.mono fun o h => by simp [h])
    obtain ⟨bs₃, b₃, q₃⟩ := r₃ ev (hev.mono fun o h => by simp [h]) bs hrel
    obtain ⟨bs₄, b₄, q₄⟩ := r₄ ev (hev.mono fun o h => by simp [h]) bs₃ q₃
    have hl : m.length = (m.map ev).length := by simp
    rw [hl] at hpad hb
    simp only [Base.Hash.hashConst, hpad, bind, Except.bind, Base.absorbAllAndSqueeze, pure,
      Except.pure, List.ofFn_get]
    rw [hb]
    simp only [b₃, b₄]
  · intro g hH hin
    obtain ⟨c₁, t₁⟩ := h₁ g (hH.mono fun o h => by simp [h])
    obtain ⟨c₂, t₂⟩ := h₂ g (hH.mono fun o h => by simp [h]) ⟨t₁, by intro k p h; cases h⟩ (by
      intro v hv
      rcases List.mem_append.mp hv with hv | hv
      · obtain ⟨a, ha, rfl⟩ := List.mem_map.mp hv
        exact hin a ha
      · obtain ⟨a, ha, rfl⟩ := List.mem_map.mp hv
        trivial)
    obtain ⟨c₃, t₃⟩ := h₃ g (hH.mono fun o h => by simp [h]) t₂
    obtain ⟨c₄, -, t₄⟩ := h₄ g (hH.mono fun o h => by simp [h]) t₃
    refine ⟨fun a b hm => ?_, t₄⟩
    simp only [List.mem_append] at hm
    rcases hm with ((hm | hm) | hm) | hm
    · exact c₁ a b hm
    · exact c₂ a b hm
    · exact c₃ a b hm
    · exact c₄ a b hm

open Gadget in
private theorem hashAll_ok (S : Pow5.Params F t) (cols : Pow5.Cols t) (σ kc : ℕ)
    (hinv : Matrix.of S.mReg * Matrix.of S.mInv = 1) (hd : cols.Distinct) (ht : 0 < t) :
    ∀ (fs : List (List (ACell F) → List (ACell F))) (L : Layouter F) (outs : List (ACell F)),
    L.constCol = some kc → (∀ f ∈ fs, ∀ outs, f outs ≠ []) →
    ∃ new L' log, hashAll S (Pow5.config S cols σ) L outs fs = .ok (outs ++ new, L') ∧
      new.length = fs.length ∧ Ext S cols σ kc L L' log ∧
      (∀ ev, Eval S cols σ log ev → ∀ (i : ℕ) (f : List (ACell F) → List (ACell F)) (x : ACell F),
        fs[i]? = some f → new[i]? = some x →
        Base.Hash.hashConst (RATE := t) (T := t + 1) (Pow5.perm S)
          (Base.Hash.init (.constantLength ((f (outs ++ new.take i)).map ev).length))
          ((f (outs ++ new.take i)).map ev).get = .ok (ev x)) ∧
      (∀ g, Holds g log → (∀ a ∈ outs, g.cell a.cell = a.value) →
        (∀ (i : ℕ) (f : List (ACell F) → List (ACell F)), fs[i]? = some f → ∀ a ∈ f (outs ++ new.take i), a ∉ outs ++ new.take i →
          g.cell a.cell = a.value) →
        CopiesHold g log ∧ ∀ x ∈ new, g.cell x.cell = x.value)
  | [], L, outs, hL, hne => ⟨[], L, [], by simp [hashAll], rfl, Ext.refl S cols σ kc L,
      by intro ev _ i f x h; simp at h, fun g _ _ _ => ⟨by intro a b h; simp at h, by simp⟩⟩
  | f :: fs, L, outs, hL, hne => by
    obtain ⟨x, L₁, log₁, e₁, x₁, v₁, h₁⟩ := hash_ok S cols σ kc hinv hd ht L hL (f outs)
      (hne f (by simp) outs)
    obtain ⟨new, L₂, log₂, e₂, hlen, x₂, v₂, h₂⟩ := hashAll_ok S cols σ kc hinv hd ht fs L₁ (outs ++ [x])
      (x₁.const.trans hL) fun f hf => hne f (by simp [hf])
    refine ⟨x :: new, L₂, log₁ ++ log₂, ?_, by simp [hlen], x₁.trans x₂, ?_, ?_⟩
    · simp only [hashAll, e₁, bind, Except.bind, e₂, List.append_assoc, List.singleton_append]
    · intro ev hev i f' y hf hy
      cases i with
      | zero =>
        simp only [List.getElem?_cons_zero, Option.some.injEq] at hf hy
        subst hf hy
        rw [List.take_zero, List.append_nil]
        exact v₁ ev (hev.mono fun o h => List.mem_append_left _ h)
      | succ i =>
        simp only [List.getElem?_cons_succ] at hf hy
        have := v₂ ev (hev.mono fun o h => List.mem_append_right _ h) i f' y hf hy
        rw [List.append_assoc] at this
        exact this
    · intro g hH ho hin
      obtain ⟨c₁, t₁⟩ := h₁ g (hH.mono fun o h => List.mem_append_left _ h) fun a ha => by
        by_cases hao : a ∈ outs
        · exact ho a hao
        · exact hin 0 f (by simp) a (by simpa using ha) (by simpa using hao)
      obtain ⟨c₂, t₂⟩ := h₂ g (hH.mono fun o h => List.mem_append_right _ h) (by
          intro a ha
          rcases List.mem_append.mp ha with ha | ha
          · exact ho a ha
          · simp only [List.mem_singleton] at ha
            exact ha ▸ t₁) (by
          intro i f' hf a ha hn
          refine hin (i + 1) f' (by simpa using hf) a ?_ ?_
          · simpa [List.append_assoc] using ha
          · simpa [List.append_assoc] using hn)
      refine ⟨fun a b hm => ?_, fun y hy => ?_⟩
      · rcases List.mem_append.mp hm with hm | hm
        · exact c₁ a b hm
        · exact c₂ a b hm
      · rcases List.mem_cons.mp hy with rfl | hy
        · exact t₁
        · exact t₂ y hy

/-- Operations after the gadget calls only write below the rows reserved so far, in the columns of the
chip and in the column of constants. -/
def Later (cols : Pow5.Cols t) (kc : ℕ) (L : Layouter F) (post : List (Op F)) : Prop :=
  ∀ o ∈ post, ∀ k ∈ Gadget.OwnCols cols kc, ∀ r, o.Hits k r → L.colEnd k ≤ r

open Gadget in
theorem accepts_of {S : Pow5.Params F t} {cols : Pow5.Cols t} {σ kc : ℕ} {L L' : Layouter F}
    {log post : List (Op F)} (hx : Ext S cols σ kc L L' log) (hL : L.Good (OwnCols cols kc))
    (hp : Later cols kc L' post) {g : Grid F}
    (hg : InstanceOf g (L'.ops ++ post) {k | RCol.fixed k ∈ OwnCols cols kc}
      {k | σ ≤ k ∧ k < σ + 4}) (hfit : Fits log g.n)
    (hgates : ∀ p ∈ Pow5.gates (Pow5.config S cols σ), p.Holds g) : Accepts S cols σ g log := by
  have hG := hx.good hL
  refine ⟨⟨?_, ?_, hfit⟩, ?_, hgates⟩
  · intro c r v hm
    have hb := hfit _ hm
    simp only [Op.bottom] at hb
    have hc : RCol.fixed c ∈ OwnCols cols kc := by
      rcases hx.own _ hm (.fixed c) r ⟨rfl, rfl⟩ with h | ⟨j, -, h⟩
      · exact h
      · cases h
    have hm' : Op.fixed c r v ∈ L'.ops := by rw [hx.ops]; exact List.mem_append_right _ hm
    rw [hg.fixed c hc r (by omega)]
    refine finalFixed_eq ⟨_, List.mem_append_left _ hm', Or.inl rfl⟩ fun o ho v' hw => ?_
    rcases List.mem_append.mp ho with ho | ho
    · have := hG.cons o ho _ hm' _ hc r hw.hits.1 ⟨rfl, rfl⟩
      rw [hw.hits.2] at this
      exact this
    · have h1 := hp o ho _ hc r hw.hits.1
      have h2 := hG.below _ hm' _ hc r ⟨rfl, rfl⟩
      omega
  · intro j hj r hm
    have hb := hfit _ hm
    simp only [Op.bottom] at hb
    rw [hg.selector _ ⟨by omega, by omega⟩ r (by omega), finalSelector_iff]
    exact List.mem_append_left _ (by rw [hx.ops]; exact List.mem_append_right _ hm)
  · intro a b hm
    exact hg.copies a b (List.mem_append_left _ (by rw [hx.ops]; exact List.mem_append_right _ hm))

open Gadget in
theorem holds_of {S : Pow5.Params F t} {cols : Pow5.Cols t} {σ kc : ℕ} {L L' : Layouter F}
    (hinv : Matrix.of S.mReg * Matrix.of S.mInv = 1)
    {log post : List (Op F)} (hx : Ext S cols σ kc L L' log) (hL : L.Good (OwnCols cols kc))
    (hp : Later cols kc L' post)
    (hsel : ∀ o ∈ L.ops ++ post, ∀ k r, o = .selector k r → ¬ (σ ≤ k ∧ k < σ + 4)) {g : Grid F}
    (hg : HonestFor g (L'.ops ++ post) {k | RCol.fixed k ∈ OwnCols cols kc}
      {k | σ ≤ k ∧ k < σ + 4} {k | cols.IsAdvice k}) (hfit : Fits log g.usable) :
    Holds g log ∧ ∀ p ∈ Pow5.gates (Pow5.config S cols σ), p.Holds g := by
  have hG := hx.good hL
  have hu := hg.usable_le
  have h1 : ∀ c r v, Op.fixed c r v ∈ log → g.fixed c r = v := by
    intro c r v hm
    have hb := hfit _ hm
    simp only [Op.bottom] at hb
    have hc : RCol.fixed c ∈ OwnCols cols kc := by
      rcases hx.own _ hm (.fixed c) r ⟨rfl, rfl⟩ with h | ⟨j, -, h⟩
      · exact h
      · cases h
    have hm' : Op.fixed c r v ∈ L'.ops := by rw [hx.ops]; exact List.mem_append_right _ hm
    rw [hg.fixed c hc r (by omega)]
    refine finalFixed_eq ⟨_, List.mem_append_left _ hm', Or.inl rfl⟩ fun o ho v' hw => ?_
    rcases List.mem_append.mp ho with ho | ho
    · have := hG.cons o ho _ hm' _ hc r hw.hits.1 ⟨rfl, rfl⟩
      rw [hw.hits.2] at this
      exact this
    · have h1 := hp o ho _ hc r hw.hits.1
      have h2 := hG.below _ hm' _ hc r ⟨rfl, rfl⟩
      omega
  have h2 : ∀ c r v, Op.advice c r v ∈ log → g.advice c r = v := by
    intro c r v hm
    have hb := hfit _ hm
    simp only [Op.bottom] at hb
    have hc : cols.IsAdvice c ∧ RCol.advice c ∈ OwnCols cols kc := by
      rcases hx.own _ hm (.advice c) r ⟨rfl, rfl⟩ with h | ⟨j, -, h⟩
      · refine ⟨?_, h⟩
        rcases h with ⟨c', h, e⟩ | ⟨c', h, e⟩
        · injection e with e; exact e ▸ h
        · cases e
      · cases h
    have hm' : Op.advice c r v ∈ L'.ops := by rw [hx.ops]; exact List.mem_append_right _ hm
    rw [hg.advice c hc.1 r (by omega)]
    refine finalAdvice_eq (List.mem_append_left _ hm') fun v' ho => ?_
    rcases List.mem_append.mp ho with ho | ho
    · exact hG.cons _ ho _ hm' _ hc.2 r ⟨rfl, rfl⟩ ⟨rfl, rfl⟩
    · have h1 := hp _ ho _ hc.2 r ⟨rfl, rfl⟩
      have h2 := hG.below _ hm' _ hc.2 r ⟨rfl, rfl⟩
      omega
  refine ⟨⟨h1, h2⟩, ?_⟩
  refine Pow5.log_complete S cols σ g hinv log hu hfit (fun c r v _ hm => h2 c r v hm)
    (fun c r v _ hm => h1 c r v hm) (fun k hk r hr => ?_) hx.just
  rw [hg.selector _ ⟨by omega, by omega⟩ r hr, hx.ops]
  exact finalSelector_between
    (fun r ho => hsel _ (List.mem_append_left _ ho) _ r rfl ⟨by omega, by omega⟩)
    (fun r ho => hsel _ (List.mem_append_right _ ho) _ r rfl ⟨by omega, by omega⟩) r

/-- **C45.** Any width and round numbers (as accepted by `configure`), any constants with
`mds * mi = 1`, any different columns, any column of constants (possibly one of `rc_b`, as in the
tests): on any layouter whose earlier writes to these columns lie above the free rows, hashing any list
of non-empty messages of any lengths, each made of any cells and of cells returned by earlier calls,
succeeds; the values returned are those of the native `Hash::hash`; and, whatever is laid out
afterwards,

* in every grid with the fixed cells and selectors so laid out, on which the gates of the chip and the
  copy constraints hold, the content of each returned cell is the native `Hash::hash` of the content of
  its message cells;
* the grid of the honest prover satisfies all gates of the chip, and, if the message cells that do not
  come from earlier calls hold their values, all copy constraints, and every returned cell holds its
  value. -/
theorem C45_gadget (fr pr : ℕ) (mds mi : Base.Mds F (t + 1)) (rc : List (Base.State F (t + 1)))
    (hrc : fr + pr ≤ rc.length) (hinv : Matrix.of mds * Matrix.of mi = 1)
    (cols : Pow5.Cols t) (hd : cols.Distinct) (cs cs' : CS F) (c : Pow5.Config F t)
    (hcfg : Pow5.configureChecked (gadgetParams fr pr mds mi rc) cols cs = .ok (c, cs'))
    (L : Layouter F) (kc : ℕ) (hconst : L.constCol = some kc)
    (hL : L.Good (Gadget.OwnCols cols kc))
    (prog : List (List (ACell F) → List (ACell F))) (hne : ∀ f ∈ prog, ∀ outs, f outs ≠ []) :
    ∃ outs L' log, hashAll (gadgetParams fr pr mds mi rc) c L [] prog = .ok (outs, L') ∧
      L'.ops = L.ops ++ log ∧ outs.length = prog.length ∧ L'.Good (Gadget.OwnCols cols kc) ∧
      (∀ (i : ℕ) f x, prog[i]? = some f → outs[i]? = some x →
        nativeConstHash fr pr mds rc ((f (outs.take i)).map ACell.value) = .ok x.value) ∧
      ∀ (post : List (Op F)) (g : Grid F), Later cols kc L' post →
        (InstanceOf g (L'.ops ++ post) {k | RCol.fixed k ∈ Gadget.OwnCols cols kc}
            {k | cs.numSelectors ≤ k ∧ k < cs'.numSelectors} →
          Fits log g.n → (∀ p ∈ cs'.gates, p.Holds g) →
          ∀ (i : ℕ) f x, prog[i]? = some f → outs[i]? = some x →
            nativeConstHash fr pr mds rc ((f (outs.take i)).map fun a => g.cell a.cell) =
              .ok (g.cell x.cell)) ∧
        ((∀ o ∈ L.ops ++ post, ∀ k r, o = .selector k r →
            ¬ (cs.numSelectors ≤ k ∧ k < cs'.numSelectors)) →
          HonestFor g (L'.ops ++ post) {k | RCol.fixed k ∈ Gadget.OwnCols cols kc}
            {k | cs.numSelectors ≤ k ∧ k < cs'.numSelectors} {k | cols.IsAdvice k} →
          Fits log g.usable →
          (∀ p ∈ cs'.gates, p ∈ cs.gates ∨ p.Holds g) ∧
          ((∀ (i : ℕ) f, prog[i]? = some f → ∀ a ∈ f (outs.take i), a ∉ outs.take i →
              g.cell a.cell = a.value) →
            CopiesHold g log ∧ ∀ x ∈ outs, g.cell x.cell = x.value)) := by
  obtain ⟨S, hS⟩ : ∃ S, S = gadgetParams fr pr mds mi rc := ⟨_, rfl⟩
  rw [← hS] at hcfg ⊢
  obtain ⟨hev, ht, rfl, rfl⟩ := configure_ok hcfg
  have hinv' : Matrix.of S.mReg * Matrix.of S.mInv = 1 := by rw [hS]; exact hinv
  have hperm : Pow5.perm S = Base.permute ⟨fr, pr, Base.sboxPow⟩ mds rc := by
    funext s
    rw [C01_permute_textbook ⟨fr, pr, Base.sboxPow⟩ mds rc hrc s, hS]
    rfl
  have hnat : ∀ m : List F, nativeConstHash fr pr mds rc m =
      Base.Hash.hashConst (RATE := t) (T := t + 1) (Pow5.perm S)
          (Base.Hash.init (.constantLength m.length)) m.get := by
    intro m; rw [hperm]; rfl
  obtain ⟨outs, L', log, e, hlen, hx, hv, hh⟩ := hashAll_ok S cols cs.numSelectors kc hinv' hd ht prog L []
    hconst hne
  refine ⟨outs, L', log, e, hx.ops, hlen, hx.good hL, ?_, ?_⟩
  · intro i f x hf hxi
    rw [hnat]
    exact hv _ (Or.inl rfl) i f x hf hxi
  · intro post g hp
    refine ⟨fun hg hfit hgates i f x hf hxi => ?_, fun hsel hg hfit => ?_⟩
    · rw [hnat]
      have hacc := accepts_of hx hL hp hg hfit fun p hp => hgates p (List.mem_append_right _ hp)
      exact hv _ (Or.inr ⟨g, hacc, rfl⟩) i f x hf hxi
    · obtain ⟨h1, h2⟩ := holds_of hinv' hx hL hp hsel hg hfit
      refine ⟨fun p hp => ?_, fun hin => ?_⟩
      · rcases List.mem_append.mp hp with h | h
        · exact Or.inl h
        · exact Or.inr (h2 p h)
      · exact hh g h1 (by simp) hin

def gxMds : Base.Mds ℚ 2 := ![![1, 1], ![1, 2]]
def gxInv : Base.Mds ℚ 2 := ![![2, -1], ![-1, 1]]
def gxRc : List (Base.State ℚ 2) := [![1, 2], ![3, 4], ![5, 6], ![7, 8], ![9, 1]]
def gxCols : Pow5.Cols 1 := ⟨![4, 2], 3, ![1, 5], ![0, 6]⟩
def gxCs : CS ℚ := ⟨7, 9, 2, [⟨"other", [.advice 0 0]⟩], [], []⟩
def gxA : ACell ℚ := ⟨⟨.advice 4, 0⟩, 11⟩
def gxB : ACell ℚ := ⟨⟨.advice 2, 0⟩, 12⟩
/-- The layouter after "load message", as in pow5.rs:890-912: two words in the state columns; the column
of constants is `rc_b[0]`. -/
def gxL : Layouter ℚ := ⟨fun _ => 1, some 0, [.advice 4 0 11, .advice 2 0 12]⟩
/-- Hash three words, then hash the digest with one of the words. -/
def gxProg : List (List (ACell ℚ) → List (ACell ℚ)) :=
  [fun _ => [gxA, gxB, gxA], fun outs => gxB :: outs]

/-- Non-vacuity of C45: two chained hashes of messages in the state columns with a shared column of
constants; there is an honest grid with nonzero blinding, it meets the hypotheses of both halves, and so
all new gates and all copy constraints hold on it and the cells returned hold the native digests. -/
example : gxCols.Distinct ∧ Matrix.of gxMds * Matrix.of gxInv = 1 ∧
    ∃ c cs', Pow5.configureChecked (gadgetParams 2 3 gxMds gxInv gxRc) gxCols gxCs = .ok (c, cs') ∧
    ∃ x y L', hashAll (gadgetParams 2 3 gxMds gxInv gxRc) c gxL [] gxProg = .ok ([x, y], L') ∧
    ∃ g : Grid ℚ, g.usable < g.n ∧ Fits L'.ops g.usable ∧
      InstanceOf g L'.ops {k | RCol.fixed k ∈ Gadget.OwnCols gxCols 0}
        {k | gxCs.numSelectors ≤ k ∧ k < cs'.numSelectors} ∧
      (∀ p ∈ cs'.gates, p ∈ gxCs.gates ∨ p.Holds g) ∧
      nativeConstHash 2 3 gxMds gxRc [11, 12, 11] = .ok (g.cell x.cell) ∧
      nativeConstHash 2 3 gxMds gxRc [12, g.cell x.cell] = .ok (g.cell y.cell) := by
  have hd : gxCols.Distinct := by
    constructor <;> simp [gxCols, Function.Injective, Fin.forall_fin_two]
  have hinv : Matrix.of gxMds * Matrix.of gxInv = 1 := by
    ext i j
    fin_cases i <;> fin_cases j <;> norm_num [gxMds, gxInv, Matrix.mul_apply, Fin.sum_univ_succ]
  obtain ⟨c, cs', hcfg⟩ : ∃ c cs',
      Pow5.configureChecked (gadgetParams 2 3 gxMds gxInv gxRc) gxCols gxCs = .ok (c, cs') := by
    unfold Pow5.configureChecked
    rw [if_pos (by simp [gadgetParams]), Pow5.configure_eq]
    exact ⟨_, _, rfl⟩
  refine ⟨hd, hinv, c, cs', hcfg, ?_⟩
  have hG : gxL.Good (Gadget.OwnCols gxCols 0) := by
    constructor
    · intro o ho k hk r h
      simp only [gxL, List.mem_cons, List.not_mem_nil, or_false] at ho
      rcases ho with rfl | rfl <;> · simp only [Op.Hits] at h; simp [gxL, h.2]
    · intro o ho o' ho' k hk r h h'
      simp only [gxL, List.mem_cons, List.not_mem_nil, or_false] at ho ho'
      rcases ho with rfl | rfl <;> rcases ho' with rfl | rfl <;>
        simp_all [Op.Hits, Op.payload]
  obtain ⟨outs, L', log, e, ho, hlen, hG', hv, h⟩ := C45_gadget 2 3 gxMds gxInv gxRc (by simp [gxRc])
    hinv gxCols hd gxCs cs' c hcfg gxL 0 rfl hG gxProg (by simp [gxProg])
  obtain ⟨x, y, rfl⟩ : ∃ x y, outs = [x, y] := by
    match outs, hlen with
    | [x, y], _ => exact ⟨x, y, rfl⟩
  obtain ⟨N, hN⟩ : ∃ N, ∀ o ∈ L'.ops, o.bottom ≤ N := by
    refine ⟨(L'.ops.map Op.bottom).foldl max 0, fun o ho => ?_⟩
    exact le_foldl_max (Or.inl (List.mem_map.mpr ⟨o, ho, rfl⟩))
  let g : Grid ℚ := ⟨N + 5, N, fun c r => if r < N then finalAdvice L'.ops c r else 5,
    finalFixed L'.ops, finalSelector L'.ops⟩
  have hfit : Fits log g.usable := fun o hm => hN o (by rw [ho]; exact List.mem_append_right _ hm)
  have hcell : ∀ k v, Op.advice k 0 v ∈ gxL.ops → g.advice k 0 = v := by
    intro k v hm
    have hm' : Op.advice k 0 v ∈ L'.ops := by rw [ho]; exact List.mem_append_left _ hm
    have hk : RCol.advice k ∈ Gadget.OwnCols gxCols 0 := by
      left
      refine ⟨k, ?_, rfl⟩
      simp only [gxL, List.mem_cons, Op.advice.injEq, List.not_mem_nil, or_false] at hm
      rcases hm with ⟨rfl, -⟩ | ⟨rfl, -⟩
      · exact Or.inl ⟨0, rfl⟩
      · exact Or.inl ⟨1, rfl⟩
    have hb := hN _ hm'
    simp only [Op.bottom] at hb
    have h0 : 0 < N := by omega
    show (if 0 < N then finalAdvice L'.ops k 0 else 5) = v
    rw [if_pos h0, hG'.cons.finalAdvice hk hm']
  have hA : g.cell gxA.cell = 11 := hcell 4 11 (by simp [gxL])
  have hB : g.cell gxB.cell = 12 := hcell 2 12 (by simp [gxL])
  have hhon : HonestFor g (L'.ops ++ []) {k | RCol.fixed k ∈ Gadget.OwnCols gxCols 0}
      {k | gxCs.numSelectors ≤ k ∧ k < cs'.numSelectors} {k | gxCols.IsAdvice k} := by
    rw [List.append_nil]
    exact ⟨by simp [g], fun _ _ _ _ => rfl, fun _ _ _ _ => rfl, fun c _ r hr => if_pos hr⟩
  obtain ⟨hgates, hcop⟩ := (h [] g (by intro o ho; simp at ho)).2 (by simp [gxL]) hhon hfit
  obtain ⟨hcop, hout⟩ := hcop (by
    intro i f hf a ha hn
    match i with
    | 0 =>
      simp only [gxProg, List.getElem?_cons_zero, Option.some.injEq] at hf
      subst hf
      simp only [List.mem_cons, List.not_mem_nil, or_false] at ha
      rcases ha with rfl | rfl | rfl
      · exact hA
      · exact hB
      · exact hA
    | 1 =>
      simp only [gxProg, List.getElem?_cons_succ, List.getElem?_cons_zero, Option.some.injEq] at hf
      subst hf
      rcases List.mem_cons.mp ha with rfl | ha
      · exact hB
      · exact absurd ha hn
    | i + 2 => simp [gxProg] at hf)
  have hx : g.cell x.cell = x.value := hout x (by simp)
  have hy : g.cell y.cell = y.value := hout y (by simp)
  refine ⟨x, y, L', e, g, by simp [g], hN, ?_, hgates, ?_, ?_⟩
  · refine ⟨by simp [g], fun _ _ _ _ => rfl, fun _ _ _ _ => rfl, ?_⟩
    intro a b hm
    rw [ho] at hm
    rcases List.mem_append.mp hm with hm | hm
    · simp [gxL] at hm
    · exact hcop a b hm
  · have := hv 0 (fun _ => [gxA, gxB, gxA]) x (by simp [gxProg]) (by simp)
    rw [hx]
    simpa only [List.map_cons, List.map_nil, gxA, gxB] using this
  · have := hv 1 (fun outs => gxB :: outs) y (by simp [gxProg]) (by simp)
    rw [hx, hy]
    simpa only [List.map_cons, List.map_nil, gxB, List.take_succ_cons, List.take_zero] using this

/-- The value returned for one message, on any layouter with a column of constants. -/
theorem hash_value {n : ℕ} (fr pr : ℕ) (mds mi : Base.Mds F (t + 1)) (rc : List (Base.State F (t + 1)))
    (hrc : fr + pr ≤ rc.length) (hinv : Matrix.of mds * Matrix.of mi = 1)
    (cols : Pow5.Cols t) (hd : cols.Distinct) (cs cs' : CS F) (c : Pow5.Config F t)
    (hcfg : Pow5.configureChecked (gadgetParams fr pr mds mi rc) cols cs = .ok (c, cs'))
    (L : Layouter F) (kc : ℕ) (hconst : L.constCol = some kc) (message : Fin n → ACell F) (hn : 0 < n) :
    ∃ x L', Gadget.hashCells (gadgetParams fr pr mds mi rc) c L message = .ok (x, L') ∧
      nativeConstHash fr pr mds rc (List.ofFn fun i => (message i).value) = .ok x.value := by
  obtain ⟨S, hS⟩ : ∃ S, S = gadgetParams fr pr mds mi rc := ⟨_, rfl⟩
  rw [← hS] at hcfg ⊢
  obtain ⟨hev, ht, rfl, rfl⟩ := configure_ok hcfg
  have hinv' : Matrix.of S.mReg * Matrix.of S.mInv = 1 := by rw [hS]; exact hinv
  have hperm : Pow5.perm S = Base.permute ⟨fr, pr, Base.sboxPow⟩ mds rc := by
    funext s
    rw [C01_permute_textbook ⟨fr, pr, Base.sboxPow⟩ mds rc hrc s, hS]
    rfl
  obtain ⟨l, hl⟩ : ∃ l, l = List.ofFn message := ⟨_, rfl⟩
  have hlen : n = l.length := by rw [hl, List.length_ofFn]
  subst hlen
  have hm : message = l.get := by
    funext i
    have := congrArg (fun k => k[i.val]?) hl
    simpa using this.symm
  subst hm
  obtain ⟨x, L', log, e, -, hv, -⟩ := hash_ok S cols cs.numSelectors kc hinv' hd ht L hconst l
    (List.length_pos_iff.mp hn)
  refine ⟨x, L', e, ?_⟩
  have hvm : (List.ofFn fun i => (l.get i).value) = l.map ACell.value := by
    rw [show (fun i => (l.get i).value) = ACell.value ∘ l.get from rfl, ← List.map_ofFn, List.ofFn_get]
  rw [hvm]
  have := hv ACell.value (Or.inl rfl)
  rw [hperm] at this
  exact this

/-- The empty message: `ConstantLength<0>` panics in the circuit as it does natively (C10), once the
initial state is laid out. -/
theorem C45_gadget_empty (S : Pow5.Params F t) (cols : Pow5.Cols t) (hd : cols.Distinct) (cs cs' : CS F)
    (c : Pow5.Config F t) (hcfg : Pow5.configureChecked S cols cs = .ok (c, cs')) (L : Layouter F)
    (kc : ℕ) (hconst : L.constCol = some kc) (message : Fin 0 → ACell F) :
    Gadget.hashCells S c L message = .error .notPadded := by
  obtain ⟨hev, ht, rfl, rfl⟩ := configure_ok hcfg
  obtain ⟨w, L₁, log₁, e₁, -⟩ := Gadget.initial_ok S cols cs.numSelectors kc hd
    ((Base.DomainKind.constantLength 0).initialCapacity (F := F)) L hconst
  have hpad : (Base.DomainKind.constantLength 0).padding t 0 = .ok ([] : List F) := by
    have : (0 + t - 1) / t = 0 := Nat.div_eq_of_lt (by omega)
    simp [Base.DomainKind.padding, Base.DomainKind.padding.constPad, Nat.ne_of_gt ht, this, ht]
  have hf := Gadget.finish_gap S cols cs.numSelectors L₁ ⟨fun _ => none, w⟩ ⟨0, ht⟩ rfl
  simp only [Gadget.hashCells, Gadget.Hash.init, Gadget.Sponge.new, e₁, Gadget.Hash.hash, hpad, bind,
    Except.bind, pure, Except.pure, List.ofFn_zero, List.map_nil, List.append_nil,
    Gadget.Sponge.absorbAll, hf]

/-- Without a column of constants every call of the gadget is refused by the layouter. -/
theorem C45_gadget_no_constants {n : ℕ} (S : Pow5.Params F t) (c : Pow5.Config F t) (L : Layouter F)
    (hconst : L.constCol = none) (message : Fin n → ACell F) :
    Gadget.hashCells S c L message = .error .noConstantColumn := by
  have h : ∀ (l : List (Fin (t + 1))) (L : Layouter F), L.constCol = none → ∀ i ∈ l, ∀ s cap,
      L.serveConstants (l.flatMap fun i => (assignAdviceFromConstant s (c.state i) 0
        (if i = Fin.last t then cap else (0 : F))).ops) = .error .noConstantColumn := by
    intro l
    cases l with
    | nil => intro L _ i hi; simp at hi
    | cons j l =>
      intro L hL i _ s cap
      simp [assignAdviceFromConstant, Layouter.serveConstants, hL]
  have e : Pow5.initialState c ((Base.DomainKind.constantLength n).initialCapacity) L =
      .error .noConstantColumn := by
    unfold Pow5.initialState Layouter.assignRegion
    simp only [bind, Except.bind, Pow5.initialStateBody, forFin]
    rw [h _ _ (by simpa [Layouter.reserve] using hconst) 0 (List.mem_finRange _)]
  simp only [Gadget.hashCells, Gadget.Hash.init, Gadget.Sponge.new, e, bind, Except.bind]

/-- Non-vacuity of `C45_gadget_empty` and `C45_gadget_no_constants`: the layouter and configuration of
the example above. -/
example : (∃ c cs', Pow5.configureChecked (gadgetParams 2 3 gxMds gxInv gxRc) gxCols gxCs = .ok (c, cs') ∧
      Gadget.hashCells (gadgetParams 2 3 gxMds gxInv gxRc) c gxL Fin.elim0 = .error .notPadded) ∧
    Gadget.hashCells (gadgetParams 2 3 gxMds gxInv gxRc) (Pow5.config (gadgetParams 2 3 gxMds gxInv gxRc)
      gxCols 2) { gxL with constCol := none } ![gxA, gxB] = .error .noConstantColumn := by
  have hd : gxCols.Distinct := by
    constructor <;> simp [gxCols, Function.Injective, Fin.forall_fin_two]
  obtain ⟨c, cs', hcfg⟩ : ∃ c cs',
      Pow5.configureChecked (gadgetParams 2 3 gxMds gxInv gxRc) gxCols gxCs = .ok (c, cs') := by
    unfold Pow5.configureChecked
    rw [if_pos (by simp [gadgetParams]), Pow5.configure_eq]
    exact ⟨_, _, rfl⟩
  exact ⟨⟨c, cs', hcfg, C45_gadget_empty _ gxCols hd gxCs cs' c hcfg gxL 0 rfl _⟩,
    C45_gadget_no_constants _ _ _ rfl _⟩

end Props
