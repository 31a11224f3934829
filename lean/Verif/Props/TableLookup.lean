import Verif.Props.TableSteer

/-!
# What other circuits can look up in the table: C66

`spec/hash-table.md` says that the table is looked up by the MPT and codehash circuits. A lookup names the six
table columns of one enabled row. The theorems say which six values some accepted assignment contains.
-/

set_option linter.unusedVariables false

namespace Props
open Halo2 Circuit Circuit.Table Base.Bn256

/-- Some enabled row holds the values `t` (digest, two words, control, domain, head flag). -/
def Answers (x : Run Fr) (g : Grid Fr) (t : Fin 6 → Fr) : Prop :=
  ∃ r < g.usable, g.fixed x.qEnable r = 1 ∧ ∀ i, x.col g i r = t i

/-- No continuation row has a domain. -/
def TailsPlain (x : Run Fr) (g : Grid Fr) : Prop :=
  ∀ r < g.usable, g.fixed x.qEnable r = 1 → x.col g 5 r = 0 → x.col g 4 r = 0

/-- Some accepted assignment (of a circuit with chip `k`, build `short`, `legacy`, loading mode `mode` and
step `K`) holds each of the rows `ts`. -/
def Lookups (k : ChipKind) (short legacy : Bool) (mode : LoadMode) (K : ℕ) (ts : List (Fin 6 → Fr)) : Prop :=
  ∃ (x : Run Fr) (L : Layouter Fr) (post : List (Op Fr)) (g : Grid Fr), x.Accepted k short L post g ∧
    x.legacy = legacy ∧ x.mode = mode ∧ x.STEP = K ∧ x.step = K ∧ ∀ t ∈ ts, Answers x g t

/-- `Lookups`, with an assignment that has no domain on a continuation row. -/
def LookupsPlain (k : ChipKind) (short legacy : Bool) (mode : LoadMode) (K : ℕ) (ts : List (Fin 6 → Fr)) :
    Prop :=
  ∃ (x : Run Fr) (L : Layouter Fr) (post : List (Op Fr)) (g : Grid Fr), x.Accepted k short L post g ∧
    x.legacy = legacy ∧ x.mode = mode ∧ x.STEP = K ∧ x.step = K ∧ TailsPlain x g ∧ ∀ t ∈ ts, Answers x g t

private theorem spec_bounds (legacy : Bool) :
    0 < Base.domainSpec legacy ∧ Base.domainSpec legacy ≤ 2 ^ 64 := by
  cases legacy <;> norm_num [Base.domainSpec]

/-! ### Rows of valid tables -/

private theorem enabled_iff {x : Run Fr} {g : Grid Fr} {s : ℕ} (hu : g.usable ≤ g.n) (hen : x.EnabledAfter g s)
    {r : ℕ} : (r < g.usable ∧ g.fixed x.qEnable r = 1) ↔ (s < r ∧ r ≤ s + x.calcs) := by
  have h1 := hen.1
  constructor
  · rintro ⟨h, e⟩
    rw [hen.2 r (by omega)] at e
    by_contra hn
    rw [if_neg hn] at e
    exact zero_ne_one e
  · intro h
    refine ⟨by omega, ?_⟩
    rw [hen.2 r (by omega), if_pos h]

/-- An assignment whose rows are those of a valid table. -/
theorem lookups_of_valid (k : ChipKind) (short legacy : Bool) (mode : LoadMode) {K : ℕ} (hK : K < 2 ^ 64)
    {T : List (Fin 6 → Fr)} (hv : ValidTable K K (Base.domainSpec legacy) T) (hlen : T.length < 2 ^ 64) :
    ∃ (x : Run Fr) (L : Layouter Fr) (post : List (Op Fr)) (g : Grid Fr), x.Accepted k short L post g ∧
      x.legacy = legacy ∧ x.mode = mode ∧ x.STEP = K ∧ x.step = K ∧ (∀ t ∈ T, Answers x g t) ∧
      ((∀ t ∈ T, t 5 = 0 → t 4 = 0) → TailsPlain x g) := by
  obtain ⟨x, L', post, g, s, h, h1, h2, h3, h4, hen, hc, hcol⟩ :=
    (C60_exists k short legacy mode hK hK T hlen hv.ne_nil).mpr hv
  refine ⟨x, L', post, g, h, h1, h2, h3, h4, fun t ht => ?_, fun hp r hr he h5 => ?_⟩
  · obtain ⟨j, hj, rfl⟩ := List.mem_iff_getElem.mp ht
    obtain ⟨e1, e2⟩ := (enabled_iff h.laid.usable_le hen).mpr ⟨show s < s + j + 1 by omega, by omega⟩
    exact ⟨s + j + 1, e1, e2, hcol j hj⟩
  · obtain ⟨e1, e2⟩ := (enabled_iff h.laid.usable_le hen).mp ⟨hr, he⟩
    obtain ⟨j, rfl⟩ : ∃ j, r = s + j + 1 := ⟨r - s - 1, by omega⟩
    have hj : j < T.length := by omega
    rw [hcol j hj] at h5 ⊢
    exact hp _ (List.getElem_mem hj) h5

/-- The rows of an accepted assignment are those of a valid table. -/
theorem table_of_accepted {x : Run Fr} {k : ChipKind} {short : Bool} {L : Layouter Fr} {post : List (Op Fr)}
    {g : Grid Fr} (h : x.Accepted k short L post g) : ∃ T, ValidTable x.STEP x.step (Base.domainSpec x.legacy) T ∧
      T.length < 2 ^ 64 ∧ ∀ t, Answers x g t → t ∈ T := by
  obtain ⟨s, hen, -⟩ := C28_controls h
  rcases Nat.eq_zero_or_pos x.calcs with h0 | hpos
  · refine ⟨_, ValidTable.last 0 0, by norm_num, ?_⟩
    rintro t ⟨r, hr, he, -⟩
    obtain ⟨e1, e2⟩ := (enabled_iff h.laid.usable_le hen).mp ⟨hr, he⟩
    omega
  obtain ⟨T, hT⟩ : ∃ T : List (Fin 6 → Fr), T = (List.range x.calcs).map fun j i => x.col g i (s + j + 1) := ⟨_, rfl⟩
  have hl : T.length = x.calcs := by rw [hT]; simp
  have hlt : T.length < 2 ^ 64 := by rw [hl]; exact h.legal.calcs_lt
  refine ⟨T, ?_, hlt, fun t ha => ?_⟩
  · refine (C60_exists k short x.legacy x.mode h.legal.STEP_lt h.legal.step_lt T hlt ?_).mp
      ⟨x, L, post, g, s, h, rfl, rfl, rfl, rfl, hen, hl.symm, fun j hj i => ?_⟩
    · intro hnil
      rw [hnil] at hl
      have : 0 = x.calcs := hl
      omega
    · subst hT
      rw [List.getElem_map, List.getElem_range]
  · obtain ⟨r, hr, he, hcol⟩ := ha
    obtain ⟨e1, e2⟩ := (enabled_iff h.laid.usable_le hen).mp ⟨hr, he⟩
    rw [hT]
    refine List.mem_map.mpr ⟨r - s - 1, List.mem_range.mpr (by omega), ?_⟩
    funext i
    rw [show s + (r - s - 1) + 1 = r by omega]
    exact hcol i

private theorem valid_of_answer {x : Run Fr} {k : ChipKind} {short : Bool} {L : Layouter Fr} {post : List (Op Fr)}
    {g : Grid Fr} (h : x.Accepted k short L post g) {t : Fin 6 → Fr} (ha : Answers x g t) :
    ∃ T, ValidTable x.STEP x.step (Base.domainSpec x.legacy) T ∧ T.length < 2 ^ 64 ∧ t ∈ T := by
  obtain ⟨T, h1, h2, h3⟩ := table_of_accepted h
  exact ⟨T, h1, h2, h3 t ha⟩

private theorem mem_contTable {SPEC step i : ℕ} {D : Fr} {more : List (Fr × Fr × Fr)} {t : Fin 6 → Fr} :
    t ∈ contTable SPEC step i D more → ∃ m < more.length, ∃ a b d,
      t = ![D, a, b, (((i + m * step) * SPEC : ℕ) : Fr), d, 0] ∧ (d, a, b) ∈ more := by
  induction more with
  | nil => intro h; simp [contTable] at h
  | cons w more ih =>
    obtain ⟨d, a, b⟩ := w
    intro h
    rcases List.mem_cons.mp h with e | h
    · exact ⟨more.length, by simp, a, b, d, e, by simp⟩
    · obtain ⟨m, hm, a', b', d', e, hmem⟩ := ih h
      exact ⟨m, by simp; omega, a', b', d', e, List.mem_cons_of_mem _ hmem⟩

/-- The relation that six values must meet to be found in a table; `n` is the number of units of the control. -/
private theorem mem_valid {K SPEC : ℕ} {T : List (Fin 6 → Fr)} (hK : 0 < K) (hv : ValidTable K K SPEC T)
    {t : Fin 6 → Fr} (ht : t ∈ T) : ∃ n ≤ K + T.length * K, t 3 = ((n * SPEC : ℕ) : Fr) ∧
      ((t 5 = 1 ∧ (K < n ∨ t 0 = Spec.rowsDigest (Spec.onTriples permBn) (t 3) [(t 4, t 1, t 2)] ∨
          (n = 0 ∧ t 1 = 0 ∧ t 2 = 0))) ∨ (t 5 = 0 ∧ 0 < n)) := by
  induction hv with
  | last d dom =>
    obtain rfl := List.mem_singleton.mp ht
    exact ⟨0, by omega, by simp, Or.inl ⟨rfl, Or.inr (Or.inr ⟨rfl, rfl, rfl⟩)⟩⟩
  | block i d a b more rest hi hpos hv ih =>
    obtain ⟨D, hD⟩ : ∃ D, D = Spec.rowsDigest (Spec.onTriples permBn)
      (((i + more.length * K) * SPEC : ℕ) : Fr) ((d, a, b) :: more) := ⟨_, rfl⟩
    rw [← hD] at ht
    rw [← hD]
    have hl : (blockTable SPEC K i D d a b more ++ rest).length = more.length + 1 + rest.length := by
      simp [blockTable, length_contTable]
      omega
    rw [hl]
    have hm : more.length * K ≤ (more.length + 1 + rest.length) * K := Nat.mul_le_mul_right _ (by omega)
    rcases List.mem_append.mp ht with h | h
    · rcases List.mem_cons.mp h with rfl | h
      · refine ⟨i + more.length * K, by omega, rfl, Or.inl ⟨rfl, ?_⟩⟩
        by_cases hmore : more = []
        · subst hmore
          exact Or.inr (Or.inl hD)
        · have h1 := hpos hmore
          have : 1 * K ≤ more.length * K := Nat.mul_le_mul_right _ (List.length_pos_iff.mpr hmore)
          exact Or.inl (by omega)
      · obtain ⟨m, hml, a', b', d', rfl, -⟩ := mem_contTable h
        have : m * K ≤ more.length * K := Nat.mul_le_mul_right _ (by omega)
        have := hpos (by rintro rfl; simp at hml)
        exact ⟨i + m * K, by omega, rfl, Or.inr ⟨rfl, by omega⟩⟩
    · obtain ⟨n, hn, e⟩ := ih h
      have : rest.length * K ≤ (more.length + 1 + rest.length) * K := Nat.mul_le_mul_right _ (by omega)
      exact ⟨n, by omega, e⟩

/-! ### Blocks that hold a given row -/

private theorem triple_surj (u : Fr × Fr × Fr) : ∃ s, Spec.onTriples permBn s = u := by
  obtain ⟨v, hv⟩ := permBn_surjective ![u.1, u.2.1, u.2.2]
  refine ⟨(v 0, v 1, v 2), ?_⟩
  have : (![v 0, v 1, v 2] : Fin 3 → Fr) = v := by
    funext i; fin_cases i <;> rfl
  simp only [Spec.onTriples]
  rw [this, hv]
  rfl

/-- Absorbing can be run backwards. -/
private theorem absorb_surj (rows : List (Fr × Fr × Fr)) :
    ∀ u, ∃ s, Spec.absorbRows (Spec.onTriples permBn) s rows = u := by
  induction rows with
  | nil => exact fun u => ⟨u, rfl⟩
  | cons w rows ih =>
    obtain ⟨d, a, b⟩ := w
    intro u
    obtain ⟨s, hs⟩ := ih u
    obtain ⟨s', hs'⟩ := triple_surj s
    obtain ⟨p, q, t⟩ := s'
    refine ⟨(p - d, q - a, t - b), ?_⟩
    simp only [Spec.absorbRows, sub_add_cancel]
    rw [hs', hs]

/-- A block of one row. -/
private theorem ext_single {K SPEC n : ℕ} {T : List (Fin 6 → Fr)} (hn : n ≤ K) (hv : ValidTable K K SPEC T)
    (a b dom : Fr) : ValidTable K K SPEC
      (![Spec.rowsDigest (Spec.onTriples permBn) ((n * SPEC : ℕ) : Fr) [(dom, a, b)], a, b, ((n * SPEC : ℕ) : Fr),
        dom, 1] :: T) := by
  have := ValidTable.block (SPEC := SPEC) (step := K) n dom a b [] T hn (by simp) hv
  simpa [blockTable, contTable] using this

/-- A block of more than one row with any given head row. -/
private theorem ext_head {K SPEC n : ℕ} {T : List (Fin 6 → Fr)} (hK : 0 < K) (hn : K < n)
    (hv : ValidTable K K SPEC T) (D a b dom : Fr) : ∃ B, ValidTable K K SPEC (B ++ T) ∧ B.length ≤ n / K + 1 ∧
      ![D, a, b, ((n * SPEC : ℕ) : Fr), dom, 1] ∈ B := by
  obtain ⟨m, hm⟩ : ∃ m, m + 1 = (n + K - 1) / K := by
    have : 1 ≤ (n + K - 1) / K := (Nat.one_le_div_iff hK).mpr (by omega)
    exact ⟨(n + K - 1) / K - 1, by omega⟩
  have hm1 : m ≤ n / K := by
    have : (n + K - 1) / K ≤ (n + K) / K := Nat.div_le_div_right (by omega)
    rw [Nat.add_div_right _ hK] at this
    omega
  obtain ⟨i, hi, hi0, hni⟩ := rows_last (m := m) (c := n) hK (by omega)
  have hmpos : 0 < m := by
    rcases Nat.eq_zero_or_pos m with rfl | h
    · omega
    · exact h
  obtain ⟨p, rfl⟩ : ∃ p, m = p + 1 := ⟨m - 1, by omega⟩
  obtain ⟨st, hst⟩ : ∃ st, st = Spec.absorbRows (Spec.onTriples permBn)
    (((n * SPEC : ℕ) : Fr), 0, 0) ((dom, a, b) :: List.replicate p (0, 0, 0)) := ⟨_, rfl⟩
  obtain ⟨s0, s1, s2⟩ := st
  obtain ⟨⟨u0, u1, u2⟩, hu⟩ := triple_surj (D, 0, 0)
  obtain ⟨more, hmore⟩ : ∃ more : List (Fr × Fr × Fr), more =
    List.replicate p (0, 0, 0) ++ [(u0 - s0, u1 - s1, u2 - s2)] := ⟨_, rfl⟩
  have hl : more.length = p + 1 := by rw [hmore]; simp
  have hD : D = Spec.rowsDigest (Spec.onTriples permBn) (((i + more.length * K) * SPEC : ℕ) : Fr)
      ((dom, a, b) :: more) := by
    rw [hl, ← hni, hmore, Spec.rowsDigest, ← List.cons_append, absorbRows_append, ← hst]
    simp only [Spec.absorbRows, add_sub_cancel]
    rw [hu]
  refine ⟨blockTable SPEC K i D dom a b more, ?_, ?_, ?_⟩
  · rw [hD]
    exact ValidTable.block i dom a b more T hi (fun _ => hi0 (by omega)) hv
  · simp [blockTable, length_contTable, hl]; omega
  · rw [blockTable, hl, ← hni]
    exact List.mem_cons_self

/-- A block with any given continuation row and no other domain than that of its head row and the given one. -/
private theorem ext_tail {K SPEC n : ℕ} {T : List (Fin 6 → Fr)} (hK : 0 < K) (hn : 0 < n)
    (hv : ValidTable K K SPEC T) (D a b dom : Fr) : ∃ B, ValidTable K K SPEC (B ++ T) ∧ B.length ≤ n / K + 2 ∧
      ![D, a, b, ((n * SPEC : ℕ) : Fr), dom, 0] ∈ B ∧ ∀ t ∈ B, t 5 = 0 → t 4 = 0 ∨ t 4 = dom := by
  obtain ⟨m, hm⟩ : ∃ m, m + 1 = (n + K - 1) / K := by
    have : 1 ≤ (n + K - 1) / K := (Nat.one_le_div_iff hK).mpr (by omega)
    exact ⟨(n + K - 1) / K - 1, by omega⟩
  have hm1 : m ≤ n / K := by
    have : (n + K - 1) / K ≤ (n + K) / K := Nat.div_le_div_right (by omega)
    rw [Nat.add_div_right _ hK] at this
    omega
  obtain ⟨i, hi, hi0, hni⟩ := rows_last (m := m) (c := n) hK (by omega)
  have hipos : 0 < i := by
    rcases Nat.eq_zero_or_pos m with rfl | h
    · omega
    · exact hi0 h
  obtain ⟨more, hmore⟩ : ∃ more : List (Fr × Fr × Fr), more = (dom, a, b) :: List.replicate m (0, 0, 0) := ⟨_, rfl⟩
  have hl : more.length = m + 1 := by rw [hmore]; simp
  obtain ⟨C, hC⟩ : ∃ C : Fr, C = (((i + more.length * K) * SPEC : ℕ) : Fr) := ⟨_, rfl⟩
  obtain ⟨s, hs⟩ := absorb_surj more (D, 0, 0)
  obtain ⟨⟨u0, u1, u2⟩, hu⟩ := triple_surj s
  have hD : D = Spec.rowsDigest (Spec.onTriples permBn) C ((u0 - C, u1, u2) :: more) := by
    rw [Spec.rowsDigest, Spec.absorbRows]
    simp only [add_sub_cancel, zero_add]
    rw [hu, hs]
  refine ⟨blockTable SPEC K i D (u0 - C) u1 u2 more, ?_, ?_, ?_, fun t ht h5 => ?_⟩
  · rw [hD, hC]
    exact ValidTable.block i _ u1 u2 more T hi (fun _ => hipos) hv
  · simp [blockTable, length_contTable, hl]; omega
  · refine List.mem_cons_of_mem _ ?_
    rw [hmore, contTable, List.length_replicate, ← hni]
    exact List.mem_cons_self
  · rcases List.mem_cons.mp ht with rfl | h
    · exact absurd h5 one_ne_zero
    · obtain ⟨j, -, a', b', d', rfl, hmem⟩ := mem_contTable h
      rw [hmore] at hmem
      rcases List.mem_cons.mp hmem with e | e
      · exact Or.inr (congrArg Prod.fst e)
      · exact Or.inl (congrArg Prod.fst (List.eq_of_mem_replicate e))

/-! ### C66 -/

/-- **C66.** The rows that can be looked up, exactly. A head row with control `n·SPEC` must have the digest of
its own words if `n ≤ K`, unless it is the last row (zero words, `n = 0`), whose digest and domain are free. A
head row with `n > K` and a continuation row (`n > 0`) can have any words, digest and domain. -/
theorem C66_lookup (k : ChipKind) (short legacy : Bool) (mode : LoadMode) {K n : ℕ} (hK : 0 < K) (hK' : K < 2 ^ 63)
    (hn : n < 2 ^ 63) (D a b dom h : Fr) :
    Lookups k short legacy mode K [![D, a, b, ((n * Base.domainSpec legacy : ℕ) : Fr), dom, h]] ↔
      (h = 1 ∧ (K < n ∨ (n = 0 ∧ a = 0 ∧ b = 0) ∨
        D = Spec.rowsDigest (Spec.onTriples permBn) ((n * Base.domainSpec legacy : ℕ) : Fr) [(dom, a, b)])) ∨
      (h = 0 ∧ 0 < n) := by
  obtain ⟨hs0, hs1⟩ := spec_bounds legacy
  constructor
  · rintro ⟨x, L, post, g, hacc, hl, -, hS, hst, hans⟩
    obtain ⟨T, hv, hlen, hmem⟩ := valid_of_answer hacc (hans _ (List.mem_singleton.mpr rfl))
    rw [hl, hS, hst] at hv
    obtain ⟨n', hn', e3, e⟩ := mem_valid hK hv hmem
    have e3' : ((n * Base.domainSpec legacy : ℕ) : Fr) = ((n' * Base.domainSpec legacy : ℕ) : Fr) := e3
    have hb : T.length * K ≤ 2 ^ 64 * 2 ^ 64 := Nat.mul_le_mul hlen.le (by omega)
    have b1 : n * Base.domainSpec legacy < r :=
      lt_of_le_of_lt (Nat.mul_le_mul hn.le hs1) (by norm_num [r])
    have b2 : n' * Base.domainSpec legacy < r :=
      lt_of_le_of_lt (Nat.mul_le_mul (show n' ≤ 2 ^ 64 + 2 ^ 64 * 2 ^ 64 by omega) hs1) (by norm_num [r])
    have e4 := (ZMod.natCast_eq_natCast_iff' _ _ r).mp e3'
    rw [Nat.mod_eq_of_lt b1, Nat.mod_eq_of_lt b2] at e4
    obtain rfl := Nat.eq_of_mul_eq_mul_right hs0 e4
    rcases e with ⟨h1, e⟩ | e
    · refine Or.inl ⟨h1, ?_⟩
      rcases e with e | e | e
      · exact Or.inl e
      · exact Or.inr (Or.inr e)
      · exact Or.inr (Or.inl e)
    · exact Or.inr e
  · have hd : n / K ≤ n := Nat.div_le_self _ _
    have key : ∀ T, ValidTable K K (Base.domainSpec legacy) T → T.length ≤ 2 ^ 63 + 5 →
        ![D, a, b, ((n * Base.domainSpec legacy : ℕ) : Fr), dom, h] ∈ T →
        Lookups k short legacy mode K [![D, a, b, ((n * Base.domainSpec legacy : ℕ) : Fr), dom, h]] := by
      intro T hv hlen hmem
      obtain ⟨x, L, post, g, hacc, h1, h2, h3, h4, h5, -⟩ :=
        lookups_of_valid k short legacy mode (by omega) hv (by omega)
      refine ⟨x, L, post, g, hacc, h1, h2, h3, h4, fun t ht => ?_⟩
      rw [List.mem_singleton.mp ht]
      exact h5 _ hmem
    rintro (⟨rfl, h⟩ | ⟨rfl, h⟩)
    · by_cases hKn : K < n
      · obtain ⟨B, hv, hlen, hmem⟩ := ext_head hK hKn (ValidTable.last 0 0 : ValidTable K K
          (Base.domainSpec legacy) _) D a b dom
        exact key _ hv (by rw [List.length_append, List.length_singleton]; omega) (List.mem_append_left _ hmem)
      · rcases h with h | ⟨rfl, rfl, rfl⟩ | h
        · exact absurd h hKn
        · refine key _ (ValidTable.last D dom) (by rw [List.length_singleton]; omega) ?_
          rw [Nat.zero_mul, Nat.cast_zero]
          exact List.mem_singleton.mpr rfl
        · rw [h] at key ⊢
          exact key _ (ext_single (by omega) (ValidTable.last 0 0) a b dom) (by
            rw [List.length_cons, List.length_singleton]; omega) List.mem_cons_self
    · obtain ⟨B, hv, hlen, hmem, -⟩ := ext_tail hK h (ValidTable.last 0 0 : ValidTable K K
        (Base.domainSpec legacy) _) D a b dom
      exact key _ hv (by rw [List.length_append, List.length_singleton]; omega) (List.mem_append_left _ hmem)

/-- **C66**, MPT rows: a lookup of two words with control 0 answers with the digest of `hash_with_domain`,
except that for two zero words any digest and domain can be answered. -/
theorem C66_mpt (k : ChipKind) (short short' legacy : Bool) (mode : LoadMode) {K : ℕ} (hK : 0 < K)
    (hK' : K < 2 ^ 63) (D a b dom : Fr) :
    Lookups k short legacy mode K [![D, a, b, 0, dom, 1]] ↔
      hashWithDomainFr short' ![a, b] dom = .ok D ∨ (a = 0 ∧ b = 0) := by
  have h := C66_lookup k short legacy mode hK hK' (n := 0) (by norm_num) D a b dom 1
  have e : hashWithDomainFr short' ![a, b] dom = .ok (Spec.rowsDigest (Spec.onTriples permBn)
      ((0 * Base.domainSpec legacy : ℕ) : Fr) [(dom, a, b)]) := by
    rw [← C58_mpt k short short' legacy mode hK (by omega) dom a b]
    exact (C58_provable k short legacy mode hK (by omega) (by norm_num) _ (by simp) (by simp) _).mpr
      ⟨by rw [Nat.zero_add, Nat.div_eq_of_lt (by omega)]; rfl, rfl⟩
  rw [e]
  rw [Nat.zero_mul, Nat.cast_zero] at h ⊢
  rw [h]
  constructor
  · rintro (⟨-, h | ⟨-, h⟩ | h⟩ | ⟨h, -⟩)
    · omega
    · exact Or.inr h
    · exact Or.inl (by rw [h])
    · exact absurd h one_ne_zero
  · rintro (h | h)
    · exact Or.inl ⟨rfl, Or.inr (Or.inr (Except.ok.inj h).symm)⟩
    · exact Or.inl ⟨rfl, Or.inr (Or.inl ⟨rfl, h⟩)⟩

/-! ### Messages looked up row by row -/

/-- Values that some block holds, whatever follows it. -/
private theorem collect {K SPEC M : ℕ} (Q : (Fin 6 → Fr) → Prop) {T₀ : List (Fin 6 → Fr)}
    (h₀ : ValidTable K K SPEC T₀) (hQ : ∀ t ∈ T₀, Q t) (ts : List (Fin 6 → Fr))
    (h : ∀ t ∈ ts, ∀ T, ValidTable K K SPEC T → ∃ B, ValidTable K K SPEC (B ++ T) ∧ B.length ≤ M ∧ t ∈ B ∧
      ∀ u ∈ B, Q u) :
    ∃ T, ValidTable K K SPEC (T ++ T₀) ∧ T.length ≤ ts.length * M ∧ (∀ t ∈ ts, t ∈ T) ∧
      ∀ u ∈ T ++ T₀, Q u := by
  induction ts with
  | nil => exact ⟨[], h₀, by simp, by simp, hQ⟩
  | cons t ts ih =>
    obtain ⟨T, hv, hl, hm, hq⟩ := ih fun t ht => h t (List.mem_cons_of_mem _ ht)
    obtain ⟨B, hv', hl', hm', hq'⟩ := h t List.mem_cons_self _ hv
    refine ⟨B ++ T, by rw [List.append_assoc]; exact hv', ?_, fun u hu => ?_, fun u hu => ?_⟩
    · rw [List.length_append, List.length_cons, Nat.add_mul]
      omega
    · rcases List.mem_cons.mp hu with rfl | hu
      · exact List.mem_append_left _ hm'
      · exact List.mem_append_right _ (hm u hu)
    · rw [List.append_assoc] at hu
      rcases List.mem_append.mp hu with hu | hu
      · exact hq' u hu
      · exact hq u hu

/-- The rows of a message of `c` units with digest `D`, as a client would look them up: control counting down
by `K`, no domain, head flag on the first row only. `first` says whether the first pair is the head row. -/
def messageRows (SPEC K : ℕ) (D : Fr) : Bool → ℕ → List (Fr × Fr) → List (Fin 6 → Fr)
  | _, _, [] => []
  | first, c, (a, b) :: ws =>
    ![D, a, b, ((c * SPEC : ℕ) : Fr), 0, if first then 1 else 0] :: messageRows SPEC K D false (c - K) ws

private theorem mem_messageRows {SPEC K : ℕ} {D : Fr} (ws : List (Fr × Fr)) : ∀ c, ws.length * K < c + K →
    ∀ t ∈ messageRows SPEC K D false c ws,
      ∃ n a b, 0 < n ∧ n ≤ c ∧ t = ![D, a, b, ((n * SPEC : ℕ) : Fr), 0, 0] := by
  induction ws with
  | nil => intro c _ t h; simp [messageRows] at h
  | cons w ws ih =>
    obtain ⟨a, b⟩ := w
    intro c hc t ht
    rw [List.length_cons, Nat.add_mul] at hc
    rcases List.mem_cons.mp ht with rfl | ht
    · exact ⟨c, a, b, by omega, le_refl _, rfl⟩
    · rcases ws with _ | ⟨w, ws⟩
      · simp [messageRows] at ht
      · rw [List.length_cons, Nat.add_mul] at hc
        obtain ⟨n, a', b', h1, h2, h3⟩ := ih (c - K) (by rw [List.length_cons, Nat.add_mul]; omega) t ht
        exact ⟨n, a', b', h1, by omega, h3⟩

private theorem ceil_bounds {K c n : ℕ} (hK : 0 < K) (h : n + 1 = (c + K - 1) / K) :
    n * K < c ∧ c / K ≤ n + 1 := by
  have h1 := Nat.div_mul_le_self (c + K - 1) K
  rw [← h, Nat.add_mul] at h1
  refine ⟨by omega, ?_⟩
  rw [h]
  exact Nat.div_le_div_right (by omega)

private theorem length_messageRows {SPEC K : ℕ} {D : Fr} (ws : List (Fr × Fr)) :
    ∀ f c, (messageRows SPEC K D f c ws).length = ws.length := by
  induction ws with
  | nil => intro f c; rfl
  | cons w ws ih => intro f c; simp [messageRows, ih]

/-- **C66**, messages looked up row by row: a message of two rows or more can be looked up with every digest.
Each row is found, with no domain, the right control and the right head flag. -/
theorem C66_message_unbound (k : ChipKind) (short legacy : Bool) (mode : LoadMode) {K c : ℕ} (hK : 0 < K)
    (hK' : K < 2 ^ 64) (ws : List (Fr × Fr)) (h2 : 2 ≤ ws.length) (hlen : ws.length < 2 ^ 31)
    (hcount : ws.length = (c + K - 1) / K) (D : Fr) :
    Lookups k short legacy mode K (messageRows (Base.domainSpec legacy) K D true c ws) := by
  obtain ⟨n, hn⟩ : ∃ n, ws.length = n + 1 := ⟨ws.length - 1, by omega⟩
  obtain ⟨hc1, hc2⟩ := ceil_bounds hK (hn ▸ hcount)
  rcases ws with _ | ⟨⟨a, b⟩, ws⟩
  · simp at h2
  rw [List.length_cons] at hn hlen h2
  have hK1 : 1 * K ≤ n * K := Nat.mul_le_mul_right _ (by omega)
  obtain ⟨T, hv, hl, hm, -⟩ := collect (M := n + 3) (fun _ => True)
    (ValidTable.last 0 0 : ValidTable K K (Base.domainSpec legacy) _) (fun _ _ => trivial)
    (messageRows (Base.domainSpec legacy) K D true c ((a, b) :: ws)) (by
      intro t ht T hT
      rcases List.mem_cons.mp ht with rfl | ht
      · obtain ⟨B, h1, h2, h3⟩ := ext_head hK (show K < c by omega) hT D a b 0
        exact ⟨B, h1, by omega, h3, fun _ _ => trivial⟩
      · obtain ⟨m, a', b', hm0, hmc, rfl⟩ := mem_messageRows ws (c - K) (by
          rw [show ws.length = n by omega]; omega) t ht
        obtain ⟨B, h1, h2, h3, -⟩ := ext_tail hK hm0 hT D a' b' 0
        have : m / K ≤ c / K := Nat.div_le_div_right (by omega)
        exact ⟨B, h1, by omega, h3, fun _ _ => trivial⟩)
  rw [length_messageRows, List.length_cons] at hl
  have hb : (ws.length + 1) * (n + 3) ≤ 2 ^ 31 * (2 ^ 31 + 3) := Nat.mul_le_mul (by omega) (by omega)
  obtain ⟨x, L, post, g, hacc, h1, h2, h3, h4, h5, -⟩ := lookups_of_valid k short legacy mode hK' hv (by
    rw [List.length_append, List.length_singleton]; omega)
  exact ⟨x, L, post, g, hacc, h1, h2, h3, h4, fun t ht => h5 t (List.mem_append_left _ (hm t ht))⟩

/-- **C66**, messages looked up row by row, without domains: let `(a, b) :: ws` be a message of `c` units and
`ws'` any words for as many continuation rows. Some accepted assignment has no domain on any continuation row
and answers the head row of the first message and the continuation rows `ws'`, all with the digest of the first
message. -/
theorem C66_message_mixed (k : ChipKind) (short short' legacy : Bool) (mode : LoadMode) {K c : ℕ} (hK : 0 < K)
    (hK' : K < 2 ^ 64) (a b : Fr) (ws ws' : List (Fr × Fr)) (hlen : ws.length + 1 < 2 ^ 31)
    (hlen' : ws'.length = ws.length) (hc : c < 2 ^ 64) (hcount : ws.length + 1 = (c + K - 1) / K) (D : Fr)
    (hD : hashMsgFr short' legacy (((a, b) :: ws).flatMap fun w => [w.1, w.2])
      (some (c * Base.domainSpec legacy)) = .ok D) :
    LookupsPlain k short legacy mode K (messageRows (Base.domainSpec legacy) K D true c ((a, b) :: ws')) := by
  have hD := ((C58_provable k short legacy mode hK hK' hc _ (by simp) (by simp; omega) D).mp
    ((C58_message k short short' legacy mode hK hK' hc ((a, b) :: ws) (by simp) (by simp; omega) D).mpr
      ⟨by rw [List.length_cons]; omega, hD⟩)).2
  obtain ⟨hc1, hc2⟩ := ceil_bounds hK hcount
  obtain ⟨i, hi, hi0, hci⟩ := rows_last (m := ws.length) (c := c) hK (by omega)
  obtain ⟨more, hmore⟩ : ∃ more : List (Fr × Fr × Fr), more = ws.map fun w => (0, w.1, w.2) := ⟨_, rfl⟩
  have hml : more.length = ws.length := by rw [hmore]; simp
  obtain ⟨T, hv, hl, hm, hq⟩ := collect (M := ws.length + 3) (fun t => t 5 = 0 → t 4 = 0)
    (ValidTable.last 0 0 : ValidTable K K (Base.domainSpec legacy) _) (by
      intro t ht
      rw [List.mem_singleton.mp ht]
      exact fun _ => rfl)
    (messageRows (Base.domainSpec legacy) K D true c ((a, b) :: ws')) (by
      intro t ht T hT
      rcases List.mem_cons.mp ht with rfl | ht
      · refine ⟨blockTable (Base.domainSpec legacy) K i D 0 a b more, ?_, ?_, ?_, fun u hu => ?_⟩
        · have := ValidTable.block i 0 a b more T hi (fun h => hi0 (by
            rw [← hml]; exact List.length_pos_iff.mpr h)) hT
          rw [hml, ← hci] at this
          rw [hD, List.map_cons, ← hmore]
          exact this
        · simp [blockTable, length_contTable, hml]
        · rw [blockTable, hml, ← hci]
          exact List.mem_cons_self
        · rcases List.mem_cons.mp hu with rfl | hu
          · exact fun _ => rfl
          · obtain ⟨j, -, a', b', d', rfl, hmem⟩ := mem_contTable hu
            rw [hmore] at hmem
            obtain ⟨w, -, e⟩ := List.mem_map.mp hmem
            exact fun _ => (congrArg Prod.fst e).symm
      · obtain ⟨m, a', b', hm0, hmc, rfl⟩ := mem_messageRows ws' (c - K) (by
          rcases Nat.eq_zero_or_pos ws.length with h0 | h0
          · have : ws' = [] := List.length_eq_zero_iff.mp (by omega)
            rw [this] at ht
            simp [messageRows] at ht
          · have : 1 * K ≤ ws.length * K := Nat.mul_le_mul_right _ h0
            rw [hlen']; omega) t ht
        obtain ⟨B, h1, h2, h3, h4⟩ := ext_tail hK hm0 hT D a' b' 0
        have : m / K ≤ c / K := Nat.div_le_div_right (by omega)
        exact ⟨B, h1, by omega, h3, fun u hu h5 => by
          rcases h4 u hu h5 with e | e <;> exact e⟩)
  rw [length_messageRows, List.length_cons] at hl
  have hb : (ws'.length + 1) * (ws.length + 3) ≤ 2 ^ 31 * (2 ^ 31 + 3) := Nat.mul_le_mul (by omega) (by omega)
  obtain ⟨x, L, post, g, hacc, h1, h2, h3, h4, h5, h6⟩ := lookups_of_valid k short legacy mode hK' hv (by
    rw [List.length_append, List.length_singleton]; omega)
  exact ⟨x, L, post, g, hacc, h1, h2, h3, h4, h6 hq, fun t ht => h5 t (List.mem_append_left _ (hm t ht))⟩

-- 100 bytes at 62 per row: two rows
example : 0 < 62 ∧ 62 < 2 ^ 63 ∧ 100 < 2 ^ 63 ∧ 2 ≤ ([(1, 2), (3, 4)] : List (Fr × Fr)).length ∧
    ([(1, 2), (3, 4)] : List (Fr × Fr)).length = (100 + 62 - 1) / 62 := by
  norm_num

-- the hypotheses of `C66_message_mixed`: words 1, 2, 3, 4, of which 3, 4 are replaced
example (short' legacy : Bool) : ∃ D, ([(3, 4)] : List (Fr × Fr)).length + 1 = (100 + 62 - 1) / 62 ∧
    ([(5, 6)] : List (Fr × Fr)).length = ([(3, 4)] : List (Fr × Fr)).length ∧
    hashMsgFr short' legacy (((1, 2) :: [(3, 4)] : List (Fr × Fr)).flatMap fun w => [w.1, w.2])
      (some (100 * Base.domainSpec legacy)) = .ok D := by
  have h := (C58_message .septidon true short' legacy .serial (K := 62) (c := 100) (by norm_num) (by norm_num)
    (by norm_num) [(1, 2), (3, 4)] (by simp) (by simp) _).mp
    ((C58_provable .septidon true legacy .serial (by norm_num) (by norm_num) (by norm_num) _ (by simp) (by simp)
      _).mpr ⟨by simp, rfl⟩)
  exact ⟨_, by norm_num, rfl, h.2⟩

end Props
