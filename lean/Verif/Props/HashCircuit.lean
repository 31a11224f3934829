import Verif.Circuit.HashCircuitRows
import Verif.Props.Gadget
import Verif.Props.Pasta

/-!
# Properties of the test circuits of the Pow5 chip: C75
-/

set_option linter.unusedVariables false
set_option linter.unusedSectionVars false
set_option linter.unusedSimpArgs false

namespace Props
open Halo2 Circuit TestCircuit

variable {F : Type} [Field F] {t : ℕ}

/-- Rows of one permutation with `fr` full and `pr` partial rounds: one per full round, one per two partial
rounds, one for a single partial round left over, one for the final state. -/
def permRows (fr pr : ℕ) : ℕ := fr + pr / 2 + pr % 2 + 1

/-- Rows of the circuit that hashes `n` words: the message, the initial state, three rows and a permutation for
each block of `t` words, the claimed output. The first permutation also waits for the `t + 1` constants in the
column of constants, which is one of its own columns. -/
def hashRows (fr pr t n : ℕ) : ℕ :=
  max 5 (t + 1) + permRows fr pr + (n - 1) / t * (3 + permRows fr pr) + 1

/-- What the mock prover checks of the gates, on the first `rows` rows. -/
def MockHolds (cs : CS F) (g : Grid F) (rows : ℕ) : Prop := ∀ p ∈ cs.gates, p.Mock g rows

private theorem steps_eq {fr pr : ℕ} (h : fr % 2 = 0) (mds mi : Base.Mds F (t + 1))
    (rc : List (Base.State F (t + 1))) :
    Pow5.steps (gadgetParams fr pr mds mi rc) + 1 = permRows fr pr := by
  simp only [Pow5.steps, gadgetParams, permRows]; omega

private theorem perm_eq (fr pr : ℕ) (mds mi : Base.Mds F (t + 1)) (rc : List (Base.State F (t + 1)))
    (hrc : fr + pr ≤ rc.length) :
    Pow5.perm (gadgetParams fr pr mds mi rc) = Base.permute ⟨fr, pr, Base.sboxPow⟩ mds rc := by
  funext s
  rw [C01_permute_textbook ⟨fr, pr, Base.sboxPow⟩ mds rc hrc s]
  rfl

/-- The layouter after the first region. -/
theorem load_good {n : ℕ} (h : n ≤ t + 1) {m : Fin n → F} {L : Layouter F} {K : Set RCol}
    (ho : ∀ o, o ∈ L.ops ↔ ∃ i : Fin n, o = .advice i 0 (m i))
    (hc : ∀ k, L.colEnd k = if ∃ i : Fin n, k = .advice i then 1 else 0) : L.Good K := by
  constructor
  · intro o hm k hk r hh
    obtain ⟨i, rfl⟩ := (ho o).mp hm
    simp only [Op.Hits] at hh
    obtain ⟨rfl, rfl⟩ := hh
    rw [hc, if_pos ⟨i, rfl⟩]
    exact Nat.one_pos
  · intro o hm o' hm' k hk r hh hh'
    obtain ⟨i, rfl⟩ := (ho o).mp hm
    obtain ⟨j, rfl⟩ := (ho o').mp hm'
    simp only [Op.Hits] at hh hh'
    have : i = j := by
      have := hh.1.symm.trans hh'.1
      injection this with this
      exact Fin.ext this
    subst this
    rfl

/-- The cells of the honest grid hold what was written. -/
private theorem honest_cell {cols : Pow5.Cols t} {kc : ℕ} {L : Layouter F} {post : List (Op F)} {g : Grid F}
    (hG : L.Good (Gadget.OwnCols cols kc)) (hp : Later cols kc L post)
    (hpc : ∀ c r v v', Op.advice c r v ∈ post → Op.advice c r v' ∈ post → v' = v)
    (hg : HonestFor g (L.ops ++ post) Set.univ Set.univ Set.univ) (hfit : Fits (L.ops ++ post) g.usable)
    {c r : ℕ} {v : F} (hm : Op.advice c r v ∈ L.ops ++ post) (hc : cols.IsAdvice c) : g.advice c r = v := by
  have hb := hfit _ hm
  simp only [Op.bottom] at hb
  have hk : RCol.advice c ∈ Gadget.OwnCols cols kc := Or.inl ⟨c, hc, rfl⟩
  rw [hg.advice c trivial r (by omega)]
  refine finalAdvice_eq hm fun v' hm' => ?_
  rcases List.mem_append.mp hm with h | h <;> rcases List.mem_append.mp hm' with h' | h'
  · exact hG.cons _ h' _ h _ hk r ⟨rfl, rfl⟩ ⟨rfl, rfl⟩
  · have h1 := hp _ h' _ hk r ⟨rfl, rfl⟩
    have h2 := hG.below _ h _ hk r ⟨rfl, rfl⟩
    omega
  · have h1 := hp _ h _ hk r ⟨rfl, rfl⟩
    have h2 := hG.below _ h' _ hk r ⟨rfl, rfl⟩
    omega
  · exact hpc c r v v' h h'

theorem hashCells_get {S : Pow5.Params F t} {c : Pow5.Config F t} {L : Layouter F} {n n' : ℕ}
    (h : n' = n) (m' : Fin n' → ACell F) (m : Fin n → ACell F) (hm : ∀ i, m' i = m (i.cast h)) :
    Gadget.hashCells S c L m' = Gadget.hashCells S c L m := by
  subst h
  have : m' = m := funext hm
  rw [this]

/-- **C75** (hash circuit). Every width, every even number of full rounds, at least two partial rounds, any
constants with `mds * mi = 1`, every message that fits the state columns and every claimed output `y`:
`HashCircuit` is configured and laid out without panic; it needs exactly `hashRows` rows; copy constraints only
connect cells of these rows in columns enabled for equality, and nothing fills a table; and

* in every grid with its fixed cells, selectors and copy constraints on which its gates hold, the cell with the
  claimed output (column 0, last row) is the native hash of the words in row 0, whatever the prover puts
  elsewhere;
* if the rows suffice, the honest grid satisfies all gates and has the message and `y` in these cells, and the copy
  constraints hold exactly if `y` is the native hash of the message; and whether or not it looks at the blinding rows, the mock prover accepts the
  gates of a grid exactly if they hold. -/
theorem C75_hash (fr pr : ℕ) (mds mi : Base.Mds F (t + 1)) (rc : List (Base.State F (t + 1)))
    (hrc : fr + pr ≤ rc.length) (hinv : Matrix.of mds * Matrix.of mi = 1) (hev : fr % 2 = 0) (hpr : 2 ≤ pr)
    (ht : 0 < t) {n : ℕ} (hn : 0 < n) (hnt : n ≤ t + 1) (m : Fin n → F) (y : F) :
    ∃ cs L, hashCircuit (gadgetParams fr pr mds mi rc) m y = .ok (cs, L) ∧
      (∀ u, Fits L.ops u ↔ hashRows fr pr t n ≤ u) ∧
      ((∀ a b, Op.copy a b ∈ L.ops → (a.col ∈ cs.equality ∧ a.row < hashRows fr pr t n) ∧
          b.col ∈ cs.equality ∧ b.row < hashRows fr pr t n) ∧ ∀ c r v, Op.fill c r v ∉ L.ops) ∧
      (∀ g : Grid F, InstanceOf g L.ops Set.univ Set.univ → hashRows fr pr t n ≤ g.n → cs.Holds g →
        nativeConstHash fr pr mds rc (List.ofFn fun i : Fin n => g.advice i 0) =
          .ok (g.advice 0 (hashRows fr pr t n - 1))) ∧
      (∀ g : Grid F, HonestFor g L.ops Set.univ Set.univ Set.univ → hashRows fr pr t n ≤ g.usable →
        cs.Holds g ∧ (∀ i : Fin n, g.advice i 0 = m i) ∧ g.advice 0 (hashRows fr pr t n - 1) = y ∧
        (CopiesHold g L.ops ↔ nativeConstHash fr pr mds rc (List.ofFn m) = .ok y)) ∧
      (∀ (g : Grid F) (rows : ℕ), g.usable ≤ rows → rows ≤ g.n → hashRows fr pr t n ≤ g.usable →
        (∀ s, ∀ r < g.n, g.selector s r = finalSelector L.ops s r) → (MockHolds cs g rows ↔ cs.Holds g)) := by
  have hR := steps_eq (pr := pr) hev mds mi rc
  have hperm := perm_eq fr pr mds mi rc hrc
  obtain ⟨S, hS⟩ : ∃ S, S = gadgetParams fr pr mds mi rc := ⟨_, rfl⟩
  rw [← hS] at hR hperm ⊢
  have hSf : S.fullRounds % 2 = 0 := by rw [hS]; exact hev
  have hSp : 2 ≤ S.partialRounds := by rw [hS]; exact hpr
  have hinv' : Matrix.of S.mReg * Matrix.of S.mInv = 1 := by rw [hS]; exact hinv
  have hd := testCols_distinct t
  -- configuration
  obtain ⟨cs, hcs⟩ : ∃ cs : CS F, cs = ⟨t + 2, 2 * (t + 1), 4,
      Pow5.gates (Pow5.config S (testCols t) 0), [], Col.fixed (t + 1) :: Pow5.eqCols (testCols t)⟩ := ⟨_, rfl⟩
  have hcfg : hashConfigure S = .ok (Pow5.config S (testCols t) 0, cs, t + 1) := by
    simp only [hashConfigure, columns_eq, CS.enableEquality]
    unfold Pow5.configureChecked
    rw [if_pos ⟨hSf, ht⟩, Pow5.configure_eq, hcs]
    rfl
  -- layout
  obtain ⟨L₀, e₀, c₀, o₀, k₀, E₀⟩ := load_ok S 0 hn hnt m (some (t + 1))
  have hcc : L₀.constCol = some ((testCols t).rcB 0) := c₀
  obtain ⟨x, L', log, e₁, hx, hv, hh⟩ := hash_ok S (testCols t) 0 (t + 1) hinv' hd ht L₀ c₀
    (List.ofFn fun i : Fin n => (⟨⟨.advice i, 0⟩, m i⟩ : ACell F))
    (by intro h; simp at h; omega)
  rw [hashCells_get (by simp) _ (fun i : Fin n => (⟨⟨.advice i, 0⟩, m i⟩ : ACell F)) (by
    intro i; simp [List.get_eq_getElem, List.getElem_ofFn]; rfl)] at e₁
  obtain ⟨E₁, hxc, hce⟩ := hashCells_ends hd hSp ht hn hcc E₀ e₁
  obtain ⟨hli, hlx⟩ := hashCells_linked (E := {c | c ∈ cs.equality}) (cols := testCols t)
    (by intro i; rw [hcs]; exact List.mem_cons_of_mem _ (List.mem_append_left _ (List.mem_map.mpr ⟨i, by simp, rfl⟩)))
    (by intro i; rw [hcs]; exact List.mem_cons_of_mem _ (List.mem_append_right _ (List.mem_map.mpr ⟨i, by simp, rfl⟩)))
    ht hcc (by
      intro i
      refine ⟨?_, Or.inl ⟨i, m i, rfl, (o₀ _).mpr ⟨i, rfl⟩⟩⟩
      rw [hcs]
      refine List.mem_cons_of_mem _ (List.mem_append_left _ (List.mem_map.mpr ⟨i.castLE hnt, by simp, rfl⟩)))
    (by intro a b hm; obtain ⟨i, hi⟩ := (o₀ _).mp hm; cases hi) e₁
  obtain ⟨L, e₂, o₂⟩ := output_ok S 0 L' x y
  have hrow : L'.colEnd (.advice 0) + 1 = hashRows fr pr t n := by
    have := hce 0
    rw [hR] at this
    rw [show RCol.advice 0 = .advice ((testCols t).state 0) from rfl, this, hashRows, zero_add]
  obtain ⟨E, hE⟩ : ∃ E, E = L'.colEnd (.advice 0) := ⟨_, rfl⟩
  rw [← hE] at o₂ hrow
  obtain ⟨post, hpost⟩ : ∃ post : List (Op F), post = [.advice 0 E y, .copy x.cell ⟨.advice 0, E⟩] := ⟨_, rfl⟩
  rw [← hpost] at o₂
  have hx0 : x.cell.col = .advice 0 := by rw [hxc]; rfl
  have hG₀ : L₀.Good (Gadget.OwnCols (testCols t) (t + 1)) := load_good hnt o₀ k₀
  have hG := hx.good hG₀
  have hlater : Later (testCols t) (t + 1) L' post := by
    intro o ho k hk r hh
    rw [hpost] at ho
    simp only [List.mem_cons, List.not_mem_nil, or_false] at ho
    rcases ho with rfl | rfl
    · simp only [Op.Hits] at hh
      obtain ⟨rfl, rfl⟩ := hh
      exact hE.ge
    · exact hh.elim
  have hnosel : ∀ o ∈ L₀.ops ++ post, ∀ k r, o ≠ .selector k r := by
    intro o ho k r e
    subst e
    rcases List.mem_append.mp ho with ho | ho
    · obtain ⟨i, hi⟩ := (o₀ _).mp ho; cases hi
    · rw [hpost] at ho; simp at ho
  have hfits : ∀ u, Fits L.ops u ↔ hashRows fr pr t n ≤ u := by
    intro u
    constructor
    · intro h
      have := h (.advice 0 E y) (by rw [o₂, hpost]; simp)
      simpa only [Op.bottom, hrow] using this
    · intro h o ho
      rw [o₂] at ho
      rcases List.mem_append.mp ho with ho | ho
      · have h1 := E₁.bot o ho
        have h2 := hce 0
        rw [← show RCol.advice 0 = .advice ((testCols t).state 0) from rfl, ← hE] at h2
        rw [← h2, max_self] at h1
        omega
      · rw [hpost] at ho
        simp only [List.mem_cons, List.not_mem_nil, or_false] at ho
        rcases ho with rfl | rfl
        · simp only [Op.bottom]; omega
        · simp [Op.bottom]
  have hnat : ∀ l : List F, nativeConstHash fr pr mds rc l =
      Base.Hash.hashConst (RATE := t) (T := t + 1) (Pow5.perm S)
          (Base.Hash.init (.constantLength l.length)) l.get := by
    intro l; rw [hperm]; rfl
  have hsub : ∀ o ∈ log, o ∈ L.ops := by
    intro o ho; rw [o₂, hx.ops]
    exact List.mem_append_left _ (List.mem_append_right _ ho)
  refine ⟨cs, L, ?_, hfits, ?_, ?_, ?_, ?_⟩
  · simp only [hashCircuit, hcfg, bind, Except.bind, hashSynthesize, e₀, e₁, e₂, pure, Except.pure]
  · have hfit : Fits L'.ops (hashRows fr pr t n) := fun o ho => (hfits _).mpr le_rfl o (by
      rw [o₂]; exact List.mem_append_left _ ho)
    refine ⟨fun a b hm => ?_, fun c r v hm => ?_⟩
    · rw [o₂] at hm
      rcases List.mem_append.mp hm with hm | hm
      · obtain ⟨ha, hb⟩ := hli a b hm
        exact ⟨⟨ha.1, ha.lt hfit⟩, hb.1, hb.lt hfit⟩
      · rw [hpost] at hm
        simp only [List.mem_cons, List.not_mem_nil, or_false, reduceCtorEq, false_or, Op.copy.injEq] at hm
        obtain ⟨rfl, rfl⟩ := hm
        have h0 : Col.advice 0 ∈ cs.equality := by
          rw [hcs]
          exact List.mem_cons_of_mem _ (List.mem_append_left _ (List.mem_map.mpr ⟨0, by simp, rfl⟩))
        exact ⟨⟨by rw [hx0]; exact h0, hlx.lt hfit⟩, h0, by dsimp only; omega⟩
    · rw [o₂, hx.ops, hpost] at hm
      simp only [List.mem_append, List.mem_cons, List.not_mem_nil, or_false, reduceCtorEq] at hm
      rcases hm with hm | hm
      · obtain ⟨i, hi⟩ := (o₀ _).mp hm; cases hi
      · have hown : RCol.fixed c ∈ Gadget.OwnCols (testCols t) (t + 1) := by
          rcases hx.own _ hm (.fixed c) r ⟨rfl, le_rfl⟩ with h | ⟨j, -, h⟩
          · exact h
          · cases h
        have := hG.below (.fill c r v) (by rw [hx.ops]; exact List.mem_append_right _ hm) _ hown
          (max r (L'.colEnd (.fixed c))) ⟨rfl, le_max_left _ _⟩
        omega
  · intro g hg hgn hH
    have hgL : InstanceOf g (L'.ops ++ post) {k | RCol.fixed k ∈ Gadget.OwnCols (testCols t) (t + 1)}
        {k | 0 ≤ k ∧ k < 0 + 4} := by
      rw [← o₂]
      exact ⟨hg.usable_le, fun c _ => hg.fixed c trivial, fun s _ => hg.selector s trivial, hg.copies⟩
    have hacc := accepts_of hx hG₀ hlater hgL (fun o ho => (hfits _).mpr hgn o (hsub o ho)) (by
      intro p hp; exact hH.1 p (by rw [hcs]; exact hp))
    have := hv _ (Or.inr ⟨g, hacc, rfl⟩)
    rw [hnat]
    have e : (List.ofFn fun i : Fin n => (⟨⟨.advice i, 0⟩, m i⟩ : ACell F)).map (fun a => g.cell a.cell) =
        List.ofFn fun i : Fin n => g.advice i 0 := by
      rw [List.map_ofFn]; rfl
    rw [e] at this
    rw [this]
    have hc := hg.copies x.cell ⟨.advice 0, E⟩ (by rw [o₂, hpost]; simp)
    rw [hc, ← hrow]
    rfl
  · intro g hg hu
    have hfit := (hfits g.usable).mpr hu
    have hgL : HonestFor g (L'.ops ++ post) {k | RCol.fixed k ∈ Gadget.OwnCols (testCols t) (t + 1)}
        {k | 0 ≤ k ∧ k < 0 + 4} {k | (testCols t).IsAdvice k} := by
      rw [← o₂]
      exact ⟨hg.usable_le, fun c _ => hg.fixed c trivial, fun s _ => hg.selector s trivial,
        fun c _ => hg.advice c trivial⟩
    obtain ⟨h1, h2⟩ := holds_of hinv' hx hG₀ hlater (fun o ho k r e => absurd e (hnosel o ho k r)) hgL
      (fun o ho => hfit o (hsub o ho))
    have hcell : ∀ c r v, Op.advice c r v ∈ L.ops → (testCols t).IsAdvice c → g.advice c r = v := by
      intro c r v hm hc
      rw [o₂] at hm hg hfit
      refine honest_cell hG hlater ?_ hg hfit hm hc
      intro c r v v' h h'
      rw [hpost] at h h'
      simp only [List.mem_cons, List.not_mem_nil, or_false, reduceCtorEq, Op.advice.injEq] at h h'
      rw [h.2.2, h'.2.2]
    have h0 : ∀ i : Fin n, g.advice i 0 = m i := by
      intro i
      refine hcell _ _ _ ?_ (Or.inl ⟨i.castLE hnt, rfl⟩)
      rw [o₂, hx.ops]
      exact List.mem_append_left _ (List.mem_append_left _ ((o₀ _).mpr ⟨i, rfl⟩))
    obtain ⟨h3, h4⟩ := hh g h1 (by
      intro a ha
      obtain ⟨i, rfl⟩ := List.mem_ofFn.mp ha
      exact h0 i)
    have h5 : g.advice 0 E = y := hcell 0 E y (by rw [o₂, hpost]; simp) (Or.inl ⟨0, rfl⟩)
    have h6 : nativeConstHash fr pr mds rc (List.ofFn m) = .ok x.value := by
      have := hv _ (Or.inl rfl)
      have e : (List.ofFn fun i : Fin n => (⟨⟨.advice i, 0⟩, m i⟩ : ACell F)).map ACell.value =
          List.ofFn m := by
        rw [List.map_ofFn]; rfl
      rw [e] at this
      rw [hnat, this]
    refine ⟨⟨fun p hp => h2 p (by rw [hcs] at hp; exact hp), by rw [hcs]; intro l hl; cases hl⟩, h0,
      by rw [← hrow]; exact h5, ?_⟩
    rw [h6, Except.ok.injEq]
    constructor
    · intro hc
      have := hc x.cell ⟨.advice 0, E⟩ (by rw [o₂, hpost]; simp)
      rw [h4] at this
      exact this.trans h5
    · intro hxy a b hm
      rw [o₂, hx.ops] at hm
      rcases List.mem_append.mp hm with hm | hm
      · rcases List.mem_append.mp hm with hm | hm
        · obtain ⟨i, hi⟩ := (o₀ _).mp hm; cases hi
        · exact h3 a b hm
      · rw [hpost] at hm
        simp only [List.mem_cons, List.not_mem_nil, or_false, reduceCtorEq, false_or, Op.copy.injEq] at hm
        obtain ⟨rfl, rfl⟩ := hm
        rw [h4, hxy]
        exact h5.symm
  · intro g rows h1 h2 hu hsel
    have hj : Gadget.Justified S (testCols t) 0 L.ops := by
      have := (Gadget.Justified.append S (testCols t) 0 (a := L₀.ops)
        (fun k _ r hm => absurd rfl (hnosel _ (List.mem_append_left _ hm) _ _)) hx.just).append S (testCols t) 0
        (b := post) (fun k _ r hm => absurd rfl (hnosel _ (List.mem_append_right _ hm) _ _))
      rw [o₂, hx.ops]
      exact this
    have hun := justified_unpoisoned S (testCols t) 0 (h1.trans h2) ((hfits _).mpr hu) hj
      (fun k _ r hr => hsel _ r hr)
    constructor
    · intro h
      refine ⟨fun p hp => ?_, by rw [hcs]; intro l hl; cases hl⟩
      have := h p hp
      rw [hcs] at hp
      exact ((hun p hp).mock_iff h1 h2).mp this
    · intro h p hp
      have := h.1 p hp
      rw [hcs] at hp
      exact ((hun p hp).mock_iff h1 h2).mpr this

/-- **C75** (permute circuit). Every width, every even number of full rounds, any number of partial rounds, any
constants with `mds * mi = 1`, every initial state `x` and expected final state `y`: `PermuteCircuit` is configured
and laid out without panic; it needs exactly one permutation and two more rows; copy constraints only connect
cells of these rows in columns enabled for equality, and nothing fills a table; in every accepted grid the last row is the textbook permutation of the first; the
honest grid satisfies all gates, has `x` and `y` in its first and last row, and satisfies the copy constraints exactly
if `y` is the permutation of `x`; the mock prover
agrees on the gates. -/
theorem C75_permute (fr pr : ℕ) (mds mi : Base.Mds F (t + 1)) (rc : List (Base.State F (t + 1)))
    (hinv : Matrix.of mds * Matrix.of mi = 1) (hev : fr % 2 = 0) (ht : 0 < t) (x y : Fin (t + 1) → F) :
    ∃ cs L, permuteCircuit (gadgetParams fr pr mds mi rc) x y = .ok (cs, L) ∧
      (∀ u, Fits L.ops u ↔ permRows fr pr + 2 ≤ u) ∧
      ((∀ a b, Op.copy a b ∈ L.ops → (a.col ∈ cs.equality ∧ a.row < permRows fr pr + 2) ∧
          b.col ∈ cs.equality ∧ b.row < permRows fr pr + 2) ∧ ∀ c r v, Op.fill c r v ∉ L.ops) ∧
      (∀ g : Grid F, InstanceOf g L.ops Set.univ Set.univ → permRows fr pr + 2 ≤ g.n → cs.Holds g →
        (fun i : Fin (t + 1) => g.advice i (permRows fr pr + 1)) = Spec.poseidon (fun v => v ^ 5) (Matrix.of mds)
          (fr / 2) pr (fun r => rc.getD r 0) fun i : Fin (t + 1) => g.advice i 0) ∧
      (∀ g : Grid F, HonestFor g L.ops Set.univ Set.univ Set.univ → permRows fr pr + 2 ≤ g.usable →
        cs.Holds g ∧ (∀ i : Fin (t + 1), g.advice i 0 = x i ∧ g.advice i (permRows fr pr + 1) = y i) ∧
        (CopiesHold g L.ops ↔
          y = Spec.poseidon (fun v => v ^ 5) (Matrix.of mds) (fr / 2) pr (fun r => rc.getD r 0) x)) ∧
      (∀ (g : Grid F) (rows : ℕ), g.usable ≤ rows → rows ≤ g.n → permRows fr pr + 2 ≤ g.usable →
        (∀ s, ∀ r < g.n, g.selector s r = finalSelector L.ops s r) → (MockHolds cs g rows ↔ cs.Holds g)) := by
  have hR := steps_eq (pr := pr) hev mds mi rc
  have hspec : Spec.poseidon (fun v : F => v ^ 5) (Matrix.of mds) (fr / 2) pr (fun r => rc.getD r 0) =
    Pow5.perm (gadgetParams fr pr mds mi rc) := rfl
  rw [hspec]
  obtain ⟨S, hS⟩ : ∃ S, S = gadgetParams fr pr mds mi rc := ⟨_, rfl⟩
  rw [← hS] at hR ⊢
  have hSf : S.fullRounds % 2 = 0 := by rw [hS]; exact hev
  have hinv' : Matrix.of S.mReg * Matrix.of S.mInv = 1 := by rw [hS]; exact hinv
  have hd := testCols_distinct t
  obtain ⟨cs, hcs⟩ : ∃ cs : CS F, cs = ⟨t + 2, 2 * (t + 1), 4,
      Pow5.gates (Pow5.config S (testCols t) 0), [], Pow5.eqCols (testCols t)⟩ := ⟨_, rfl⟩
  have hcfg : permuteConfigure S = .ok (Pow5.config S (testCols t) 0, cs) := by
    simp only [permuteConfigure, columns_eq]
    unfold Pow5.configureChecked
    rw [if_pos ⟨hSf, ht⟩, Pow5.configure_eq, hcs]
    rfl
  obtain ⟨L₀, e₀, c₀, o₀, k₀, E₀⟩ := load_ok S 0 (Nat.succ_pos t) le_rfl x none
  simp only [prepare_eq] at e₀
  obtain ⟨w, hw⟩ : ∃ w : Words F (t + 1), w = fun i => ⟨⟨.advice i, 0⟩, x i⟩ := ⟨_, rfl⟩
  rw [← hw] at e₀
  obtain ⟨w', L', log, e₁, hx, hv, hh⟩ := Gadget.perm_ok S (testCols t) 0 (t + 1) hinv' hd L₀ w
  obtain ⟨hce, hbot, hcop⟩ := permute_row S 0 k₀ (fun o ho => by
    obtain ⟨i, rfl⟩ := (o₀ o).mp ho; simp [Op.bottom]) (fun i => by rw [hw]) e₁
  obtain ⟨u, L, post, e₂, o₂, hpost⟩ := constrain_ok S 0 L' w' y (fun i => (hce i).2)
  obtain ⟨E, hE⟩ : ∃ E, E = 1 + (Pow5.steps S + 1) := ⟨_, rfl⟩
  rw [← hE] at hbot hpost
  have hrow : E + 1 = permRows fr pr + 2 := by rw [← hR]; omega
  have hrow' : permRows fr pr + 1 = E := by omega
  have hG₀ : L₀.Good (Gadget.OwnCols (testCols t) (t + 1)) := load_good le_rfl o₀ k₀
  have hG := hx.good hG₀
  have hlater : Later (testCols t) (t + 1) L' post := by
    intro o ho k hk r hh
    obtain ⟨i, rfl | rfl⟩ := (hpost o).mp ho
    · simp only [Op.Hits] at hh
      obtain ⟨rfl, rfl⟩ := hh
      rw [(hce i).2, hE]
    · exact hh.elim
  have hnosel : ∀ o ∈ L₀.ops ++ post, ∀ k r, o ≠ .selector k r := by
    intro o ho k r e
    subst e
    rcases List.mem_append.mp ho with ho | ho
    · obtain ⟨i, hi⟩ := (o₀ _).mp ho; cases hi
    · obtain ⟨i, h | h⟩ := (hpost _).mp ho <;> cases h
  have hfits : ∀ u, Fits L.ops u ↔ permRows fr pr + 2 ≤ u := by
    intro u
    constructor
    · intro h
      have := h (.advice 0 E (y 0)) (by
        rw [o₂]; exact List.mem_append_right _ ((hpost _).mpr ⟨0, Or.inl rfl⟩))
      simpa only [Op.bottom, hrow] using this
    · intro h o ho
      rw [o₂] at ho
      rcases List.mem_append.mp ho with ho | ho
      · have h1 := hbot o ho
        omega
      · obtain ⟨i, rfl | rfl⟩ := (hpost o).mp ho
        · simp only [Op.bottom]; omega
        · simp [Op.bottom]
  have hsub : ∀ o ∈ log, o ∈ L.ops := by
    intro o ho; rw [o₂, hx.ops]
    exact List.mem_append_left _ (List.mem_append_right _ ho)
  have heq : ∀ i : Fin (t + 1), Col.advice i ∈ cs.equality := by
    intro i
    rw [hcs]
    exact List.mem_append_left _ (List.mem_map.mpr ⟨i, by simp, rfl⟩)
  refine ⟨cs, L, ?_, hfits, ?_, ?_, ?_, ?_⟩
  · simp only [permuteCircuit, hcfg, bind, Except.bind, permuteSynthesize, e₀, e₁, e₂, pure, Except.pure]
  · refine ⟨fun a b hm => ?_, fun c r v hm => ?_⟩
    · rw [o₂] at hm
      rcases List.mem_append.mp hm with hm | hm
      · rcases hcop a b hm with h | ⟨i, h1, h2⟩
        · obtain ⟨i, hi⟩ := (o₀ _).mp h; cases hi
        · rw [h1, h2]; exact ⟨⟨heq i, by dsimp only; omega⟩, heq i, by dsimp only; omega⟩
      · obtain ⟨i, h | h⟩ := (hpost _).mp hm
        · cases h
        · cases h
          rw [(hce i).1]
          exact ⟨⟨heq i, by dsimp only; omega⟩, heq i, by dsimp only; omega⟩
    · rw [o₂, hx.ops] at hm
      rcases List.mem_append.mp hm with hm | hm
      · rcases List.mem_append.mp hm with hm | hm
        · obtain ⟨i, hi⟩ := (o₀ _).mp hm; cases hi
        · have hown : RCol.fixed c ∈ Gadget.OwnCols (testCols t) (t + 1) := by
            rcases hx.own _ hm (.fixed c) r ⟨rfl, le_rfl⟩ with h | ⟨j, -, h⟩
            · exact h
            · cases h
          have := hG.below (.fill c r v) (by rw [hx.ops]; exact List.mem_append_right _ hm) _ hown
            (max r (L'.colEnd (.fixed c))) ⟨rfl, le_max_left _ _⟩
          omega
      · obtain ⟨i, h | h⟩ := (hpost _).mp hm <;> cases h
  · intro g hg hgn hH
    have hgL : InstanceOf g (L'.ops ++ post) {k | RCol.fixed k ∈ Gadget.OwnCols (testCols t) (t + 1)}
        {k | 0 ≤ k ∧ k < 0 + 4} := by
      rw [← o₂]
      exact ⟨hg.usable_le, fun c _ => hg.fixed c trivial, fun s _ => hg.selector s trivial, hg.copies⟩
    have hacc := accepts_of hx hG₀ hlater hgL (fun o ho => (hfits _).mpr hgn o (hsub o ho)) (by
      intro p hp; exact hH.1 p (by rw [hcs]; exact hp))
    funext i
    have h1 := hv _ (Or.inr ⟨g, hacc, rfl⟩) i
    have h2 := hg.copies (w' i).cell ⟨.advice i, E⟩ (by
      rw [o₂]; exact List.mem_append_right _ ((hpost _).mpr ⟨i, Or.inr rfl⟩))
    rw [hrow']
    have h3 : g.advice i E = g.cell (w' i).cell := h2.symm
    rw [h3, h1, hw]
    rfl
  · intro g hg hu
    have hfit := (hfits g.usable).mpr hu
    have hgL : HonestFor g (L'.ops ++ post) {k | RCol.fixed k ∈ Gadget.OwnCols (testCols t) (t + 1)}
        {k | 0 ≤ k ∧ k < 0 + 4} {k | (testCols t).IsAdvice k} := by
      rw [← o₂]
      exact ⟨hg.usable_le, fun c _ => hg.fixed c trivial, fun s _ => hg.selector s trivial,
        fun c _ => hg.advice c trivial⟩
    obtain ⟨h1, h2⟩ := holds_of hinv' hx hG₀ hlater (fun o ho k r e => absurd e (hnosel o ho k r)) hgL
      (fun o ho => hfit o (hsub o ho))
    have hcell : ∀ c r v, Op.advice c r v ∈ L.ops → (testCols t).IsAdvice c → g.advice c r = v := by
      intro c r v hm hc
      rw [o₂] at hm hg hfit
      refine honest_cell hG hlater ?_ hg hfit hm hc
      intro c r v v' h h'
      obtain ⟨i, h | h⟩ := (hpost _).mp h
      · obtain ⟨j, h' | h'⟩ := (hpost _).mp h'
        · injection h with a1 a2 a3
          injection h' with b1 b2 b3
          have : i = j := Fin.ext (a1.symm.trans b1)
          rw [a3, b3, this]
        · cases h'
      · cases h
    have h0 : ∀ i : Fin (t + 1), g.advice i 0 = x i := by
      intro i
      refine hcell _ _ _ ?_ (Or.inl ⟨i, rfl⟩)
      rw [o₂, hx.ops]
      exact List.mem_append_left _ (List.mem_append_left _ ((o₀ _).mpr ⟨i, rfl⟩))
    obtain ⟨h3, h4⟩ := hh g h1 (by
      intro i
      rw [hw]
      exact h0 i)
    have h5 : ∀ i : Fin (t + 1), g.advice i E = y i := fun i => hcell i E (y i) (by
      rw [o₂]; exact List.mem_append_right _ ((hpost _).mpr ⟨i, Or.inl rfl⟩)) (Or.inl ⟨i, rfl⟩)
    have h6 : ∀ i, (w' i).value = Pow5.perm S x i := by
      intro i
      have := hv _ (Or.inl rfl) i
      rw [hw] at this
      exact this
    refine ⟨⟨fun p hp => h2 p (by rw [hcs] at hp; exact hp), by rw [hcs]; intro l hl; cases hl⟩,
      fun i => ⟨h0 i, by rw [hrow']; exact h5 i⟩, ?_⟩
    constructor
    · intro hc
      funext i
      have := hc (w' i).cell ⟨.advice i, E⟩ (by
        rw [o₂]; exact List.mem_append_right _ ((hpost _).mpr ⟨i, Or.inr rfl⟩))
      rw [← h6 i, ← h5 i]
      exact this.symm.trans (h4 i)
    · intro hxy a b hm
      rw [o₂, hx.ops] at hm
      rcases List.mem_append.mp hm with hm | hm
      · rcases List.mem_append.mp hm with hm | hm
        · obtain ⟨i, hi⟩ := (o₀ _).mp hm; cases hi
        · exact h3 a b hm
      · obtain ⟨i, h | h⟩ := (hpost _).mp hm
        · cases h
        · cases h
          refine (h4 i).trans ?_
          rw [h6 i, ← hxy]
          exact (h5 i).symm
  · intro g rows h1 h2 hu hsel
    have hj : Gadget.Justified S (testCols t) 0 L.ops := by
      have := (Gadget.Justified.append S (testCols t) 0 (a := L₀.ops)
        (fun k _ r hm => absurd rfl (hnosel _ (List.mem_append_left _ hm) _ _)) hx.just).append S (testCols t) 0
        (b := post) (fun k _ r hm => absurd rfl (hnosel _ (List.mem_append_right _ hm) _ _))
      rw [o₂, hx.ops]
      exact this
    have hun := justified_unpoisoned S (testCols t) 0 (h1.trans h2) ((hfits _).mpr hu) hj
      (fun k _ r hr => hsel _ r hr)
    constructor
    · intro h
      refine ⟨fun p hp => ?_, by rw [hcs]; intro l hl; cases hl⟩
      have := h p hp
      rw [hcs] at hp
      exact ((hun p hp).mock_iff h1 h2).mp this
    · intro h p hp
      have := h.1 p hp
      rw [hcs] at hp
      exact ((hun p hp).mock_iff h1 h2).mpr this

/-- **C75** (panics). The other inputs: `configure` refuses an odd number of full rounds and width 1, a message of
more than `WIDTH` words has no columns to be loaded into, and the empty message is not padded to a block. -/
theorem C75_panics (S : Pow5.Params F t) {n : ℕ} (m : Fin n → F) (y : F) :
    (¬ (S.fullRounds % 2 = 0 ∧ 0 < t) → hashCircuit S m y = .error .badSpec ∧
      ∀ x z, permuteCircuit S x z = .error .badSpec) ∧
    (S.fullRounds % 2 = 0 ∧ 0 < t → t + 1 < n → hashCircuit S m y = .error .index) ∧
    (S.fullRounds % 2 = 0 ∧ 0 < t → n = 0 → hashCircuit S m y = .error .notPadded) := by
  have hcfg : S.fullRounds % 2 = 0 ∧ 0 < t → ∃ c cs cs', Pow5.configureChecked S (testCols t) cs = .ok (c, cs') ∧
      hashConfigure S = .ok (c, cs', t + 1) := by
    intro h
    refine ⟨_, CS.mk (t + 2) (2 * (t + 1)) 0 [] [] [Col.fixed (t + 1)], _, by
      unfold Pow5.configureChecked; rw [if_pos h, Pow5.configure_eq], ?_⟩
    simp only [hashConfigure, columns_eq, CS.enableEquality]
    unfold Pow5.configureChecked
    rw [if_pos h, Pow5.configure_eq]
    rfl
  refine ⟨fun h => ⟨?_, fun x z => ?_⟩, fun h hn => ?_, fun h hn => ?_⟩
  · simp only [hashCircuit, hashConfigure, columns_eq, CS.enableEquality, Pow5.configureChecked, if_neg h, bind,
      Except.bind]
  · simp only [permuteCircuit, permuteConfigure, columns_eq, Pow5.configureChecked, if_neg h, bind, Except.bind]
  · obtain ⟨c, cs, cs', h1, h2⟩ := hcfg h
    have : loadBody c m 0 = .error .index := by
      unfold loadBody; rw [dif_neg (by omega)]
    simp only [hashCircuit, h2, bind, Except.bind, hashSynthesize, Layouter.assignRegion, this]
  · obtain ⟨c, cs, cs', h1, h2⟩ := hcfg h
    subst hn
    have hb : ∀ s, loadBody c m s = .ok ⟨Fin.elim0, []⟩ := by
      intro s
      unfold loadBody
      rw [dif_pos (Nat.zero_le _)]
      congr 1
      simp only [forFin, List.finRange_zero]
      congr 1
      funext i
      exact i.elim0
    have hreg := Layouter.assignRegion_ok (freshLayouter (some (t + 1)) : Layouter F)
      (fun s => (⟨Fin.elim0, []⟩ : W F (Fin 0 → ACell F))) (by intro s c v h; cases h)
    have hb' : (fun s => loadBody c m s) = fun _ => Except.ok (⟨Fin.elim0, []⟩ : W F (Fin 0 → ACell F)) :=
      funext hb
    simp only [hashCircuit, h2, bind, Except.bind, hashSynthesize, hb', hreg]
    rw [C45_gadget_empty S (testCols t) (testCols_distinct t) cs cs' c h1 _ (t + 1) rfl]

/-- **C75** (cell check). The mock prover also wants every cell that a gate queries to be assigned in the region
that enables the gate. The regions of the two circuits that enable selectors, those of `permute` and of
`add_input`, pass, wherever they are placed; the others enable none. -/
theorem C75_regions (S : Pow5.Params F t) (cols : Pow5.Cols t) (cs cs' : CS F) (c : Pow5.Config F t)
    (hcfg : Pow5.configureChecked S cols cs = .ok (c, cs')) (start : ℕ) :
    (∀ w, ∀ p ∈ Pow5.gates c, p.CellsAssigned (Pow5.permuteBody S c w start).ops) ∧
    (∀ w inp, ∀ p ∈ Pow5.gates c, p.CellsAssigned (Pow5.addInputBody c w inp start).ops) ∧
    (∀ s r, (∀ {n : ℕ} (m : Fin n → F) b, loadBody c m start = .ok b → Op.selector s r ∉ b.ops) ∧
      (∀ cap, Op.selector s r ∉ (Pow5.initialStateBody c cap start).ops) ∧
      (∀ x, Op.selector s r ∉ (prepareBody c x start).ops) ∧
      (∀ w y, Op.selector s r ∉ (constrainBody c w y start).ops) ∧
      ∀ a y, Op.selector s r ∉ (outputBody c a y start).ops) := by
  obtain ⟨hev, ht, rfl, rfl⟩ := configure_ok hcfg
  refine ⟨fun w => Pow5.permute_assigned S cols _ w start, fun w inp => addInput_assigned S cols _ w inp start,
    fun s r => ⟨fun m b hb hm => ?_, fun cap hm => ?_, fun x hm => ?_, fun w y hm => ?_, fun a y hm => ?_⟩⟩
  · unfold loadBody at hb
    split_ifs at hb with h
    injection hb with hb
    subst hb
    obtain ⟨i, hi⟩ := (mem_forFin _ _).mp hm
    simp [assignAdvice] at hi
  · obtain ⟨i, h | h⟩ := (Gadget.mem_initial S cols _ cap start _).mp hm <;> cases h
  · obtain ⟨i, hi⟩ := (mem_forFin _ _).mp hm
    simp [assignAdvice] at hi
  · obtain ⟨i, hi⟩ := (mem_forFin _ _).mp hm
    simp [assignAdvice, constrainEqual] at hi
  · simp [outputBody, assignAdvice, constrainEqual] at hm

private def hcS (fr : ℕ) : Pow5.Params ℚ 1 := gadgetParams fr 3 gxMds gxInv gxRc

private theorem gx_inv : Matrix.of gxMds * Matrix.of gxInv = 1 := by
  ext i j
  fin_cases i <;> fin_cases j <;> norm_num [gxMds, gxInv, Matrix.mul_apply, Fin.sum_univ_succ]

/-- The honest grid with ones in the blinding rows. -/
private noncomputable def blinded (ops : List (Op ℚ)) (u : ℕ) : Grid ℚ :=
  ⟨u + 6, u, fun c r => if r < u then finalAdvice ops c r else 1, finalFixed ops, finalSelector ops⟩

private theorem blinded_honest (ops : List (Op ℚ)) (u : ℕ) :
    HonestFor (blinded ops u) ops Set.univ Set.univ Set.univ :=
  ⟨by simp [blinded], fun _ _ _ _ => rfl, fun _ _ _ _ => rfl, fun c _ r hr => if_pos hr⟩

/-- Non-vacuity of `C75_hash`: width 2, an odd number of partial rounds, a message of two words. With the native
hash as output there is a grid with nonzero blinding that satisfies all gates and copy constraints and is an
instance of the circuit; with another output the copy constraints fail on the honest grid. -/
example : ∃ y, nativeConstHash 2 3 gxMds gxRc [11, 12] = .ok y ∧
    (∃ cs L, hashCircuit (hcS 2) ![11, 12] y = .ok (cs, L) ∧ ∃ g : Grid ℚ, g.usable < g.n ∧
      hashRows 2 3 1 2 = g.usable ∧ InstanceOf g L.ops Set.univ Set.univ ∧ cs.Holds g ∧ MockHolds cs g g.n) ∧
    ∃ cs L, hashCircuit (hcS 2) ![11, 12] (y + 1) = .ok (cs, L) ∧ ∃ g : Grid ℚ,
      HonestFor g L.ops Set.univ Set.univ Set.univ ∧ cs.Holds g ∧ ¬ CopiesHold g L.ops := by
  have key := fun y => C75_hash 2 3 gxMds gxInv gxRc (by simp [gxRc]) gx_inv (by norm_num) (by norm_num)
    (by norm_num) (n := 2) (by norm_num) (by norm_num) ![11, 12] y
  have hl : List.ofFn ![(11 : ℚ), 12] = [11, 12] := by simp
  rw [hl] at key
  obtain ⟨y, hy⟩ : ∃ y, nativeConstHash 2 3 gxMds gxRc [11, 12] = .ok y := by
    unfold nativeConstHash
    rw [C10_constant_length (by norm_num) (by norm_num), if_neg (by simp)]
    exact ⟨_, rfl⟩
  refine ⟨y, hy, ?_, ?_⟩
  · obtain ⟨cs, L, e, h1, h2, h3, h4, h5⟩ := key y
    refine ⟨cs, L, e, blinded L.ops (hashRows 2 3 1 2), by simp [blinded], rfl, ?_⟩
    have hh := blinded_honest L.ops (hashRows 2 3 1 2)
    obtain ⟨h6, h7⟩ := h4 _ hh le_rfl
    exact ⟨⟨hh.usable_le, hh.fixed, hh.selector, h7.2.2.mpr hy⟩, h6,
      (h5 _ _ hh.usable_le le_rfl le_rfl fun _ _ _ => rfl).mpr h6⟩
  · obtain ⟨cs, L, e, h1, h2, h3, h4, h5⟩ := key (y + 1)
    refine ⟨cs, L, e, blinded L.ops (hashRows 2 3 1 2), blinded_honest _ _, ?_⟩
    obtain ⟨h6, h7⟩ := h4 _ (blinded_honest L.ops (hashRows 2 3 1 2)) le_rfl
    refine ⟨h6, fun h => ?_⟩
    have := h7.2.2.mp h
    rw [hy, Except.ok.injEq] at this
    simp at this

/-- Non-vacuity of `C75_permute`. -/
example (x : Fin 2 → ℚ) : ∃ y cs L, permuteCircuit (hcS 2) x y = .ok (cs, L) ∧ ∃ g : Grid ℚ, g.usable < g.n ∧
    permRows 2 3 + 2 = g.usable ∧ InstanceOf g L.ops Set.univ Set.univ ∧ cs.Holds g ∧ MockHolds cs g g.n := by
  obtain ⟨cs, L, e, h1, h2, h3, h4, h5⟩ := C75_permute 2 3 gxMds gxInv gxRc gx_inv (by norm_num) (by norm_num) x
    (Spec.poseidon (fun v => v ^ 5) (Matrix.of gxMds) (2 / 2) 3 (fun r => gxRc.getD r 0) x)
  refine ⟨_, cs, L, e, blinded L.ops (permRows 2 3 + 2), by simp [blinded], rfl, ?_⟩
  have hh := blinded_honest L.ops (permRows 2 3 + 2)
  obtain ⟨h6, -, h7⟩ := h4 _ hh le_rfl
  exact ⟨⟨hh.usable_le, hh.fixed, hh.selector, h7.mpr rfl⟩, h6,
    (h5 _ _ hh.usable_le le_rfl le_rfl fun _ _ _ => rfl).mpr h6⟩

/-- Non-vacuity of `C75_panics`: three full rounds; three words for width two; no words. -/
example : hashCircuit (hcS 3) ![11, 12] 5 = .error .badSpec ∧
    hashCircuit (hcS 2) ![11, 12, 13] 5 = .error .index ∧ hashCircuit (hcS 2) ![] 5 = .error .notPadded :=
  ⟨((C75_panics (hcS 3) ![11, 12] 5).1 (by simp [hcS, gadgetParams])).1,
    (C75_panics (hcS 2) ![11, 12, 13] 5).2.1 (by simp [hcS, gadgetParams]) (by norm_num),
    (C75_panics (hcS 2) ![] 5).2.2 (by simp [hcS, gadgetParams]) rfl⟩

/-- Non-vacuity of `C75_regions`: `configure` succeeds, and both kinds of regions do enable selectors. -/
example (w : Words ℚ 2) (inp : Fin 1 → Pow5.PaddedWord ℚ) : ∃ c cs',
    Pow5.configureChecked (hcS 2) gxCols gxCs = .ok (c, cs') ∧
    Op.selector c.sFull 7 ∈ (Pow5.permuteBody (hcS 2) c w 7).ops ∧
    Op.selector c.sPadAndAdd 8 ∈ (Pow5.addInputBody c w inp 7).ops := by
  refine ⟨_, _, by unfold Pow5.configureChecked; rw [if_pos (by simp [hcS, gadgetParams]), Pow5.configure_eq],
    ?_, ?_⟩
  · refine ((Pow5.permuteBody_spec _ _ _ _ _).2 _).mpr (Or.inl ?_)
    exact .sel 0 (by simp [Pow5.steps, hcS, gadgetParams])
  · exact (Gadget.mem_addInput _ _ _ _ _ _ _).mpr (Or.inl rfl)

/-! ## The instance of the tests -/

theorem pasta_native (short : Bool) {n : ℕ} (m : Fin n → Base.Pasta.Fp) :
    nativeConstHash 8 56 Base.Pasta.mds Base.Pasta.roundConstants (List.ofFn m) =
      Base.Pasta.hashFp short m := by
  obtain ⟨rc, h1, h2⟩ := Base.Pasta.permute_ok short
  have hp : Base.permute (Base.Pasta.hashSpec short) Base.Pasta.mds rc = Base.Pasta.specPerm := funext h2
  have hp' : Base.permute ⟨8, 56, Base.sboxPow⟩ Base.Pasta.mds Base.Pasta.roundConstants =
      Base.Pasta.specPerm := by
    funext s
    exact Base.permute_eq_spec (Base.p128Pow5T3 56 : Base.RSpec Base.Pasta.Fp) Base.Pasta.mds
      Base.Pasta.roundConstants s (by simp [Base.p128Pow5T3, Base.Pasta.roundConstants_length])
  simp only [Base.Pasta.hashFp, h1, bind, Except.bind, hp, nativeConstHash, hp']
  have key : ∀ (n' : ℕ) (h : n' = n) (m' : Fin n' → Base.Pasta.Fp), (∀ i, m' i = m (i.cast h)) →
      Base.Hash.hashConst (RATE := 2) Base.Pasta.specPerm (Base.Hash.init (.constantLength n')) m' =
        Base.Hash.hashConst (RATE := 2) Base.Pasta.specPerm (Base.Hash.init (.constantLength n)) m := by
    rintro n' rfl m' hm'
    have : m' = m := funext hm'
    rw [this]
  exact key _ (by simp) _ (by intro i; simp [List.get_eq_getElem, List.getElem_ofFn]; rfl)

/-- **C75** (the tests). For `P128Pow5T3<Fp>` over Pallas, the instance of the tests, and every message of one, two
or three words: the circuit takes 43 rows for one or two words and 83 for three (so `k = 6` and `k = 7` of the tests
suffice, with the six rows that halo2 reserves, and are the least), an accepted grid holds the native hash of the
words in its first row, and the test succeeds with the output of the native hash of either build and with no other. -/
theorem C75_pasta (short : Bool) {n : ℕ} (hn : 0 < n) (hn3 : n ≤ 3) (m : Fin n → Base.Pasta.Fp) (y : Base.Pasta.Fp) :
    ∃ cs L, hashCircuit (gadgetParams 8 56 Base.Pasta.mds Base.Pasta.mdsInv Base.Pasta.roundConstants) m y =
        .ok (cs, L) ∧
      (∀ u, Fits L.ops u ↔ (if n = 3 then 83 else 43) ≤ u) ∧
      (∀ g : Grid Base.Pasta.Fp, InstanceOf g L.ops Set.univ Set.univ → (if n = 3 then 83 else 43) ≤ g.n →
        cs.Holds g → Base.Pasta.hashFp short (fun i : Fin n => g.advice i 0) =
          .ok (g.advice 0 (if n = 3 then 82 else 42))) ∧
      (∀ (g : Grid Base.Pasta.Fp) (rows : ℕ), HonestFor g L.ops Set.univ Set.univ Set.univ →
        g.usable = 2 ^ (if n = 3 then 7 else 6) - 6 → g.usable ≤ rows → rows ≤ g.n →
        (MockHolds cs g rows ∧ CopiesHold g L.ops ↔ Base.Pasta.hashFp short m = .ok y)) := by
  obtain ⟨cs, L, e, h1, -, h3, h4, h5⟩ := C75_hash 8 56 Base.Pasta.mds Base.Pasta.mdsInv Base.Pasta.roundConstants
    (by rw [Base.Pasta.roundConstants_length]) Base.Pasta.mds_mul_mdsInv (by norm_num) (by norm_num) (by norm_num)
    hn hn3 m y
  have hr : hashRows 8 56 2 n = if n = 3 then 83 else 43 := by
    have : n = 1 ∨ n = 2 ∨ n = 3 := by omega
    rcases this with rfl | rfl | rfl <;> simp [hashRows, permRows]
  rw [hr] at h1 h3 h4 h5
  refine ⟨cs, L, e, h1, fun g hg hgn hH => ?_, fun g rows hg hu h6 h7 => ?_⟩
  · rw [← pasta_native, h3 g hg hgn hH]
    split_ifs <;> rfl
  · have hle : (if n = 3 then 83 else 43) ≤ g.usable := by
      rw [hu]; split_ifs <;> norm_num
    have hm := h5 g rows h6 h7 hle (fun s => hg.selector s trivial)
    obtain ⟨h8, -, -, h9⟩ := h4 g hg hle
    rw [hm, ← pasta_native short, h9]
    exact and_iff_right h8

/-- `PermuteCircuit` of the tests takes 39 rows, and its test succeeds exactly for the output of the native
permutation of either build. -/
theorem C75_pasta_permute (short : Bool) (x y : Fin 3 → Base.Pasta.Fp) :
    ∃ cs L, permuteCircuit (gadgetParams 8 56 Base.Pasta.mds Base.Pasta.mdsInv Base.Pasta.roundConstants) x y =
        .ok (cs, L) ∧
      (∀ u, Fits L.ops u ↔ 39 ≤ u) ∧
      (∀ (g : Grid Base.Pasta.Fp) (rows : ℕ), HonestFor g L.ops Set.univ Set.univ Set.univ →
        g.usable = 2 ^ 6 - 6 → g.usable ≤ rows → rows ≤ g.n →
        (MockHolds cs g rows ∧ CopiesHold g L.ops ↔ Base.Pasta.permuteFp short x = .ok y)) := by
  obtain ⟨cs, L, e, h1, -, -, h4, h5⟩ := C75_permute 8 56 Base.Pasta.mds Base.Pasta.mdsInv Base.Pasta.roundConstants
    Base.Pasta.mds_mul_mdsInv (by norm_num) (by norm_num) x y
  have hr : permRows 8 56 + 2 = 39 := by simp [permRows]
  rw [hr] at h1 h4 h5
  refine ⟨cs, L, e, h1, fun g rows hg hu h6 h7 => ?_⟩
  have hle : 39 ≤ g.usable := by rw [hu]; norm_num
  have hm := h5 g rows h6 h7 hle (fun s => hg.selector s trivial)
  obtain ⟨h8, -, h9⟩ := h4 g hg hle
  rw [hm, h9, (C50_pasta_permutation short).1]
  rw [and_iff_right h8, Except.ok.injEq]
  exact eq_comm

end Props
