import Verif.Props.Ideal
import Mathlib.Data.Fintype.CardEmbedding
import Mathlib.Algebra.Order.Ring.Pow
import Mathlib.Data.Nat.Factorial.Basic
import Mathlib.Tactic.Linarith
import Mathlib.Tactic.Ring
import Mathlib.Tactic.FieldSimp
import Mathlib.Tactic.Positivity
import Mathlib.Algebra.Order.Field.Basic
import Mathlib.Data.Rat.Cast.Order

/-!
# Digests of calls that were not evaluated: counting

Used by C104.
-/

set_option linter.unusedVariables false
set_option linter.unusedSectionVars false

namespace Ideal
variable {S : Type} [Fintype S] [DecidableEq S]

/-- Among the permutations with given values, those with one more value are at least one in `|S|`. -/
theorem count_value (H : List (Entry S)) (x y : S) (hx : ∀ e ∈ H, e.2.1 ≠ x) (hy : ∀ e ∈ H, e.2.2 ≠ y) :
    {π : Equiv.Perm S | Extends π H}.ncard ≤ {π : Equiv.Perm S | Extends π H ∧ π x = y}.ncard * Fintype.card S := by
  classical
  set P : Finset (Equiv.Perm S) := Finset.univ.filter fun π => Extends π H with hP
  have e1 : {π : Equiv.Perm S | Extends π H}.ncard = P.card := by
    rw [← Set.ncard_coe_finset]
    congr 1
    ext π
    simp [hP]
  have e2 : {π : Equiv.Perm S | Extends π H ∧ π x = y}.ncard = (P.filter fun π => π x = y).card := by
    rw [← Set.ncard_coe_finset]
    congr 1
    ext π
    simp [hP]
  have hle : ∀ t, (P.filter fun π => π x = t).card ≤ (P.filter fun π => π x = y).card := by
    intro t
    refine Finset.card_le_card_of_injOn (fun π => π.trans (Equiv.swap t y)) ?_ ?_
    · intro π hπ
      rw [Finset.mem_coe, Finset.mem_filter] at hπ
      rw [Finset.mem_coe, Finset.mem_filter]
      refine ⟨Finset.mem_filter.2 ⟨Finset.mem_univ _, fun e he => ?_⟩, ?_⟩
      · have h1 := (Finset.mem_filter.1 hπ.1).2 e he
        rw [Equiv.trans_apply, h1]
        refine Equiv.swap_apply_of_ne_of_ne ?_ (hy e he)
        intro h
        exact hx e he (π.injective (h1.trans (h.trans hπ.2.symm)))
      · rw [Equiv.trans_apply, hπ.2, Equiv.swap_apply_left]
    · intro π _ π' _ h
      exact Equiv.ext fun z => (Equiv.swap t y).injective (congrArg (fun σ : Equiv.Perm S => σ z) h)
  rw [e1, e2, Finset.card_eq_sum_card_fiberwise (t := Finset.univ) (f := fun π : Equiv.Perm S => π x)
    fun _ _ => Finset.mem_coe.2 (Finset.mem_univ _)]
  refine (Finset.sum_le_card_nsmul _ _ _ fun t _ => hle t).trans ?_
  rw [Finset.card_univ, smul_eq_mul, Nat.mul_comm]

/-- The same for several values. -/
theorem count_values {U : Type} [DecidableEq U] (H : List (Entry S)) (V : Finset U) (x y : U → S)
    (hx : ∀ u ∈ V, ∀ e ∈ H, e.2.1 ≠ x u) (hy : ∀ u ∈ V, ∀ e ∈ H, e.2.2 ≠ y u) (ix : Set.InjOn x V) (iy : Set.InjOn y V) :
    {π : Equiv.Perm S | Extends π H}.ncard ≤
      {π : Equiv.Perm S | Extends π H ∧ ∀ u ∈ V, π (x u) = y u}.ncard * Fintype.card S ^ V.card := by
  induction V using Finset.induction_on generalizing H with
  | empty => simp
  | insert a V ha ih =>
    have h1 := count_value H (x a) (y a) (hx a (Finset.mem_insert_self _ _)) (hy a (Finset.mem_insert_self _ _))
    have h2 := ih ((true, x a, y a) :: H) (by
        intro u hu e he
        rcases List.mem_cons.1 he with rfl | he
        · intro h
          exact ha (ix (Finset.mem_coe.2 (Finset.mem_insert_self _ _)) (Finset.mem_coe.2 (Finset.mem_insert_of_mem hu)) h ▸ hu)
        · exact hx u (Finset.mem_insert_of_mem hu) e he) (by
        intro u hu e he
        rcases List.mem_cons.1 he with rfl | he
        · intro h
          exact ha (iy (Finset.mem_coe.2 (Finset.mem_insert_self _ _)) (Finset.mem_coe.2 (Finset.mem_insert_of_mem hu)) h ▸ hu)
        · exact hy u (Finset.mem_insert_of_mem hu) e he)
      (ix.mono (by simp)) (iy.mono (by simp))
    have s1 : {π : Equiv.Perm S | Extends π ((true, x a, y a) :: H)} = {π : Equiv.Perm S | Extends π H ∧ π (x a) = y a} := by
      ext π
      simp [Extends, and_comm]
    have s2 : {π : Equiv.Perm S | Extends π ((true, x a, y a) :: H) ∧ ∀ u ∈ V, π (x u) = y u} =
        {π : Equiv.Perm S | Extends π H ∧ ∀ u ∈ insert a V, π (x u) = y u} := by
      ext π
      simp only [Extends, List.mem_cons, forall_eq_or_imp, Finset.mem_insert, Set.mem_ofPred_eq]
      tauto
    rw [s1, s2] at h2
    rw [Finset.card_insert_of_notMem ha, pow_succ, ← Nat.mul_assoc]
    exact h1.trans (Nat.mul_le_mul_right _ h2)

end Ideal

namespace Props
open Base Collide Ideal

variable {F : Type} [Field F]

/-- The non-empty beginnings of inputs: each is the place of one evaluation of the permutation. -/
def beginnings [DecidableEq F] (xs : Finset (F × List (F × F))) : Finset (F × List (F × F)) :=
  xs.biUnion fun x => (Finset.range x.2.length).image fun j => (x.1, x.2.take (j + 1))

section
variable [DecidableEq F]

theorem mem_beginnings {xs : Finset (F × List (F × F))} {p : F × List (F × F)} :
    p ∈ beginnings xs ↔ ∃ x ∈ xs, p.1 = x.1 ∧ p.2 ≠ [] ∧ p.2 <+: x.2 := by
  simp only [beginnings, Finset.mem_biUnion, Finset.mem_image, Finset.mem_range]
  constructor
  · rintro ⟨x, hx, j, hj, rfl⟩
    refine ⟨x, hx, rfl, ?_, List.take_prefix _ _⟩
    intro h
    have := congrArg List.length h
    simp at this
    rw [this] at hj
    simp at hj
  · rintro ⟨x, hx, h1, h2, h3⟩
    obtain ⟨c, bs⟩ := p
    simp only at h1 h2 h3
    have h4 := List.length_pos_iff.2 h2
    refine ⟨x, hx, bs.length - 1, ?_, ?_⟩
    · have := h3.length_le
      omega
    · rw [Nat.sub_add_cancel h4, ← List.prefix_iff_eq_take.1 h3, h1]

theorem self_mem_beginnings {xs : Finset (F × List (F × F))} {x : F × List (F × F)} (hx : x ∈ xs) (h : x.2 ≠ []) :
    x ∈ beginnings xs := mem_beginnings.2 ⟨x, hx, rfl, h, List.prefix_rfl⟩

theorem parent_mem_beginnings {xs : Finset (F × List (F × F))} {c : F} {bs : List (F × F)} {b : F × F}
    (h : (c, bs ++ [b]) ∈ beginnings xs) (hb : bs ≠ []) : (c, bs) ∈ beginnings xs := by
  obtain ⟨x, hx, h1, -, h3⟩ := mem_beginnings.1 h
  exact mem_beginnings.2 ⟨x, hx, h1, hb, (List.prefix_append _ _).trans h3⟩

theorem card_beginnings (xs : Finset (F × List (F × F))) : (beginnings xs).card ≤ ∑ x ∈ xs, x.2.length :=
  Finset.card_biUnion_le.trans (Finset.sum_le_sum fun x _ => Finset.card_image_le.trans_eq (Finset.card_range _))

end

/-- What has been evaluated is evaluated to the same. -/
theorem asked_snoc {π : State F 3 → State F 3} {H : List (Entry (State F 3))} {c : F} {bs : List (F × F)} {b : F × F} :
    Asked π H c (bs ++ [b]) ↔
      Asked π H c bs ∧ ∃ e ∈ H, e.2.1 = vec (add (absorb (Spec.onTriples π) (c, 0, 0) bs) b) := by
  simp only [Asked, queries_snoc, List.mem_append, List.mem_singleton]
  constructor
  · intro h
    exact ⟨fun s hs => h s (Or.inl hs), h _ (Or.inr rfl)⟩
  · rintro ⟨h1, h2⟩ s (hs | rfl)
    · exact h1 s hs
    · exact h2

/-- Whether an input is evaluated depends on the transcript only. -/
theorem asked_congr {π π' : Equiv.Perm (State F 3)} {H : List (Entry (State F 3))} (h : Extends π H) (h' : Extends π' H) {c : F}
    {bs : List (F × F)} (ha : Asked π H c bs) :
    absorb (Spec.onTriples π') (c, 0, 0) bs = absorb (Spec.onTriples π) (c, 0, 0) bs ∧ Asked π' H c bs := by
  induction bs using List.reverseRecOn with
  | nil => exact ⟨rfl, fun s hs => absurd hs List.not_mem_nil⟩
  | append_singleton bs b ih =>
    obtain ⟨h1, e, he, h2⟩ := asked_snoc.1 ha
    obtain ⟨h3, h4⟩ := ih h1
    refine ⟨?_, asked_snoc.2 ⟨h4, e, he, by rw [h3, h2]⟩⟩
    rw [absorb_snoc, absorb_snoc, h3]
    refine vec_inj ?_
    rw [vec_onTriples, vec_onTriples, ← h2, h e he, h' e he]

/-- Evaluated beginnings with one capacity word are the same. -/
theorem asked_inj {roots : Finset F} {π : Equiv.Perm (State F 3)} {H : List (Entry (State F 3))}
    (hg : Good (fun s => s 0) roots H) (hx : Extends π H) {c c' : F} (hc : c ∈ roots) (hc' : c' ∈ roots)
    {m m' : List (F × F)} (ha : Asked π H c m) (ha' : Asked π H c' m')
    (h : (absorb (Spec.onTriples π) (c, 0, 0) m).1 = (absorb (Spec.onTriples π) (c', 0, 0) m').1) : c = c' ∧ m = m' := by
  obtain ⟨g1, g2⟩ := good_spec hg hx
  rcases List.eq_nil_or_concat' m with rfl | ⟨l, b, rfl⟩
  · rcases List.eq_nil_or_concat' m' with rfl | ⟨l', b', rfl⟩
    · exact ⟨h, rfl⟩
    · rw [absorb_snoc] at h
      have h' := g1 c' hc' _ ha' (add (absorb (Spec.onTriples π) (c', 0, 0) l') b') (by simp [queries_snoc])
      rw [← h] at h'
      exact absurd hc h'
  · rcases List.eq_nil_or_concat' m' with rfl | ⟨l', b', rfl⟩
    · rw [absorb_snoc] at h
      have h' := g1 c hc _ ha (add (absorb (Spec.onTriples π) (c, 0, 0) l) b) (by simp [queries_snoc])
      rw [h] at h'
      exact absurd hc' h'
    · rcases reduction _ c c' _ _ (by simp) (by simp) h with h | ⟨s, hs, s', hs', hne, h⟩ | ⟨s, hs, h⟩ | ⟨s, hs, h⟩
      · exact h
      · exact absurd (g2 c hc _ ha c' hc' _ ha' s hs s' hs' h) hne
      · exact absurd (h ▸ hc') (g1 c hc _ ha s hs)
      · exact absurd (h ▸ hc) (g1 c' hc' _ ha' s hs)

/-- The state after an evaluated beginning is a base state or a value in the transcript. -/
theorem asked_label {π : Equiv.Perm (State F 3)} {H : List (Entry (State F 3))} (hx : Extends π H) {c : F} {bs : List (F × F)}
    (h : Asked π H c bs) : (absorb (Spec.onTriples π) (c, 0, 0) bs).1 = c ∨
      (absorb (Spec.onTriples π) (c, 0, 0) bs).1 ∈ labels (fun s : State F 3 => s 0) H := by
  rcases List.eq_nil_or_concat' bs with rfl | ⟨l, b, rfl⟩
  · exact Or.inl rfl
  · right
    obtain ⟨-, e, he, h⟩ := asked_snoc.1 h
    rw [absorb_snoc]
    refine List.mem_flatMap.2 ⟨e, he, ?_⟩
    have := hx e he
    rw [h] at this
    rw [← this, ← vec_onTriples (π : State F 3 → State F 3)]
    simp [vec]

section
variable [Fintype F] [DecidableEq F]

/-- The calls that have not been evaluated have any digests for almost the expected number of permutations. -/
theorem digests_ge {q : ℕ} (hq : Fintype.card F = q) {H : List (Entry (State F 3))} {roots : Finset F}
    (hg : Good (fun s => s 0) roots H) {π₀ : Equiv.Perm (State F 3)} (h₀ : Extends π₀ H) {xs : Finset (F × List (F × F))}
    (hroot : ∀ x ∈ xs, x.1 ∈ roots) (hne : ∀ x ∈ xs, x.2 ≠ [])
    (hlen : ∀ x ∈ xs, ∀ y ∈ xs, x.1 = y.1 → x.2.length = y.2.length) (hnew : ∀ x ∈ xs, ¬ Asked π₀ H x.1 x.2)
    (d : F × List (F × F) → F) :
    ∃ i, i + xs.card ≤ (beginnings xs).card ∧
      (q - (roots.card + 2 * H.length + xs.card)).descFactorial i * (q ^ 2) ^ i *
        (q ^ 2 - H.length).descFactorial xs.card * {π : Equiv.Perm (State F 3) | Extends π H}.ncard ≤
      {π : Equiv.Perm (State F 3) | Extends π H ∧
        ∀ x ∈ xs, (absorb (Spec.onTriples π) (x.1, 0, 0) x.2).1 = d x}.ncard * (q ^ 3) ^ (i + xs.card) := by
  classical
  set ab := fun (π : Equiv.Perm (State F 3)) (p : F × List (F × F)) => absorb (Spec.onTriples π) (p.1, 0, 0) p.2 with hab
  -- the evaluations that are not in the transcript
  set U := (beginnings xs).filter fun p => ¬ Asked π₀ H p.1 p.2 with hU
  set I := U.filter fun p => p ∉ xs with hI
  have hxU : ∀ x ∈ xs, x ∈ U := fun x hx => Finset.mem_filter.2 ⟨self_mem_beginnings hx (hne x hx), hnew x hx⟩
  have hUsplit : ∀ u ∈ U, u ∈ I ∨ u ∈ xs := fun u hu => by
    by_cases h : u ∈ xs
    · exact Or.inr h
    · exact Or.inl (Finset.mem_filter.2 ⟨hu, h⟩)
  have hcardU : U.card = I.card + xs.card := by
    have : U = I ∪ xs := by
      ext u
      rw [Finset.mem_union]
      exact ⟨hUsplit u, fun h => h.elim (fun h => (Finset.mem_filter.1 h).1) (hxU u)⟩
    rw [this, Finset.card_union_of_disjoint]
    rw [Finset.disjoint_left]
    exact fun u hu => (Finset.mem_filter.1 hu).2
  refine ⟨I.card, ?_, ?_⟩
  · rw [← hcardU]
    exact Finset.card_filter_le _ _
  -- the labels and the rate words that are not available
  set B : Finset F := roots ∪ (labels (fun s : State F 3 => s 0) H).toFinset ∪ xs.image d with hB
  set R : Finset (F × F) := (H.map fun e => (e.2.2 1, e.2.2 2)).toFinset with hR
  let A := (I ↪ {k // k ∉ B}) × (I → F × F) × (xs ↪ {w // w ∉ R})
  have hBc : B.card ≤ roots.card + 2 * H.length + xs.card := by
    refine (Finset.card_union_le _ _).trans (Nat.add_le_add ((Finset.card_union_le _ _).trans (Nat.add_le_add_left ?_ _))
      Finset.card_image_le)
    refine (List.toFinset_card_le _).trans (le_of_eq ?_)
    rw [labels]
    simp [List.length_flatMap, Nat.mul_comm]
  have hRc : R.card ≤ H.length := by
    refine (List.toFinset_card_le _).trans ?_
    rw [List.length_map]
  have hA : (q - (roots.card + 2 * H.length + xs.card)).descFactorial I.card * (q ^ 2) ^ I.card *
      (q ^ 2 - H.length).descFactorial xs.card ≤ Fintype.card A := by
    have c1 : ∀ {α : Type} [Fintype α] [DecidableEq α] (T : Finset α), Fintype.card {k // k ∉ T} = Fintype.card α - T.card := by
      intro α _ _ T
      rw [Fintype.card_subtype_compl, Fintype.card_coe]
    rw [Fintype.card_prod, Fintype.card_prod, Fintype.card_embedding_eq, Fintype.card_embedding_eq, Fintype.card_fun,
      Fintype.card_prod, hq, Fintype.card_coe, Fintype.card_coe, c1, c1, Fintype.card_prod, hq, ← Nat.mul_assoc, ← pow_two]
    exact Nat.mul_le_mul (Nat.mul_le_mul (Nat.descFactorial_le _ (by omega)) le_rfl) (Nat.descFactorial_le _ (by omega))
  -- the states after the beginnings
  let val : A → F × List (F × F) → F × F × F := fun a p =>
    if h : p ∈ I then ((a.1 ⟨p, h⟩).1, a.2.1 ⟨p, h⟩) else if h : p ∈ xs then (d p, (a.2.2 ⟨p, h⟩).1) else ab π₀ p
  let pt : A → F × List (F × F) → F × F × F := fun a p => add (val a (p.1, p.2.dropLast)) (p.2.getLastD (0, 0))
  have hpt : ∀ a c bs b, pt a (c, bs ++ [b]) = add (val a (c, bs)) b := fun a c bs b => by simp [pt]
  have vI : ∀ a p (h : p ∈ I), val a p = ((a.1 ⟨p, h⟩).1, a.2.1 ⟨p, h⟩) := fun a p h => dif_pos h
  have vX : ∀ a p (h : p ∈ xs), val a p = (d p, (a.2.2 ⟨p, h⟩).1) := fun a p h => by
    have h' : p ∉ I := fun h' => (Finset.mem_filter.1 h').2 h
    simp only [val, dif_neg h', dif_pos h]
  have v0 : ∀ a p, p ∉ U → val a p = ab π₀ p := fun a p h => by
    have h1 : p ∉ I := fun h' => h (Finset.mem_filter.1 h').1
    have h2 : p ∉ xs := fun h' => h (hxU p h')
    simp only [val, dif_neg h1, dif_neg h2]
  have hUb : ∀ u ∈ U, u ∈ beginnings xs := fun u hu => (Finset.mem_filter.1 hu).1
  have hUn : ∀ u ∈ U, ¬ Asked π₀ H u.1 u.2 := fun u hu => (Finset.mem_filter.1 hu).2
  have hbr : ∀ u ∈ beginnings xs, u.1 ∈ roots := fun u hu => by
    obtain ⟨x, hx, h, -⟩ := mem_beginnings.1 hu
    rw [h]
    exact hroot x hx
  have hnil : ∀ c, (c, []) ∉ U := fun c h => by
    obtain ⟨x, hx, -, h, -⟩ := mem_beginnings.1 (hUb _ h)
    exact h rfl
  -- the beginning before one that is not in the transcript is in the transcript or is not complete
  have hpar : ∀ c bs b, (c, bs ++ [b]) ∈ U → Asked π₀ H c bs ∧ (c, bs) ∉ U ∨ (c, bs) ∈ I := by
    intro c bs b h
    by_cases ha : Asked π₀ H c bs
    · exact Or.inl ⟨ha, fun h' => hUn _ h' ha⟩
    right
    have hbs : bs ≠ [] := by
      rintro rfl
      exact ha fun s hs => absurd hs List.not_mem_nil
    have hb := parent_mem_beginnings (hUb _ h) hbs
    refine Finset.mem_filter.2 ⟨Finset.mem_filter.2 ⟨hb, ha⟩, fun hx => ?_⟩
    obtain ⟨x, hx', h1, -, h3⟩ := mem_beginnings.1 (hUb _ h)
    have := hlen _ hx _ hx' h1
    have h4 := h3.length_le
    simp only [List.length_append, List.length_singleton] at h4 this
    omega
  have hBk : ∀ k ∉ B, k ∉ roots ∧ k ∉ labels (fun s : State F 3 => s 0) H ∧ k ∉ xs.image d := by
    intro k hk
    rw [hB, Finset.mem_union, Finset.mem_union, List.mem_toFinset] at hk
    tauto
  -- new points
  have ptH : ∀ a, ∀ u ∈ U, ∀ e ∈ H, e.2.1 ≠ vec (pt a u) := by
    rintro a ⟨c, bs⟩ hu e he h
    rcases List.eq_nil_or_concat' bs with rfl | ⟨bs, b, rfl⟩
    · exact hnil c hu
    rw [hpt] at h
    rcases hpar c bs b hu with ⟨h1, h2⟩ | h1
    · rw [v0 a _ h2] at h
      exact hUn _ hu (asked_snoc.2 ⟨h1, e, he, h⟩)
    · rw [vI a _ h1] at h
      refine (hBk _ (a.1 ⟨_, h1⟩).2).2.1 (List.mem_flatMap.2 ⟨e, he, ?_⟩)
      rw [h]
      exact List.mem_cons_self
  have ptI : ∀ a, Set.InjOn (fun u => vec (pt a u)) U := by
    rintro a ⟨c, bs⟩ hu ⟨c', bs'⟩ hu' h
    have h := vec_inj h
    rcases List.eq_nil_or_concat' bs with rfl | ⟨bs, b, rfl⟩
    · exact absurd hu (hnil c)
    rcases List.eq_nil_or_concat' bs' with rfl | ⟨bs', b', rfl⟩
    · exact absurd hu' (hnil c')
    rw [hpt, hpt] at h
    have hl := congrArg (fun s : F × F × F => s.1) h
    change (val a (c, bs)).1 = (val a (c', bs')).1 at hl
    have hp : (c, bs) = (c', bs') := by
      have lab : ∀ c bs, c ∈ roots → Asked π₀ H c bs → ∀ i : I, (ab π₀ (c, bs)).1 ≠ (a.1 i).1 := by
        intro c bs hc ha i h
        obtain ⟨k1, k2, -⟩ := hBk _ (a.1 i).2
        rcases asked_label h₀ ha with h' | h'
        · exact k1 (by rw [← h]; exact h'.symm ▸ hc)
        · exact k2 (by rw [← h]; exact h')
      have r1 : c ∈ roots := hbr _ (hUb _ hu)
      have r2 : c' ∈ roots := hbr _ (hUb _ hu')
      rcases hpar c bs b hu with ⟨h1, h2⟩ | h1 <;> rcases hpar c' bs' b' hu' with ⟨h1', h2'⟩ | h1'
      · rw [v0 a _ h2, v0 a _ h2'] at hl
        obtain ⟨rfl, rfl⟩ := asked_inj hg h₀ r1 r2 h1 h1' hl
        rfl
      · rw [v0 a _ h2, vI a _ h1'] at hl
        exact absurd hl (lab c bs r1 h1 _)
      · rw [v0 a _ h2', vI a _ h1] at hl
        exact absurd hl.symm (lab c' bs' r2 h1' _)
      · rw [vI a _ h1, vI a _ h1'] at hl
        exact congrArg Subtype.val (a.1.injective (Subtype.ext hl))
    rw [hp] at h
    rw [add_inj h, (Prod.mk.inj hp).1, (Prod.mk.inj hp).2]
  -- new values
  have valH : ∀ a, ∀ u ∈ U, ∀ e ∈ H, e.2.2 ≠ vec (val a u) := by
    intro a u hu e he h
    rcases hUsplit u hu with hi | hx
    · rw [vI a u hi] at h
      refine (hBk _ (a.1 ⟨_, hi⟩).2).2.1 (List.mem_flatMap.2 ⟨e, he, ?_⟩)
      rw [h]
      exact List.mem_cons_of_mem _ List.mem_cons_self
    · rw [vX a u hx] at h
      refine (a.2.2 ⟨u, hx⟩).2 (List.mem_toFinset.2 (List.mem_map.2 ⟨e, he, ?_⟩))
      rw [h]
      rfl
  have valI : ∀ a, Set.InjOn (fun u => vec (val a u)) U := by
    intro a u hu v hv h
    have h := vec_inj h
    have mix : ∀ (i : I), ∀ x ∈ xs, (a.1 i).1 ≠ d x := fun i x hx h =>
      (hBk _ (a.1 i).2).2.2 (Finset.mem_image.2 ⟨x, hx, h.symm⟩)
    rcases hUsplit u hu with hi | hx <;> rcases hUsplit v hv with hi' | hx'
    · rw [vI a u hi, vI a v hi'] at h
      exact congrArg Subtype.val (a.1.injective (Subtype.ext (congrArg Prod.fst h)))
    · rw [vI a u hi, vX a v hx'] at h
      exact absurd (congrArg Prod.fst h) (mix _ _ hx')
    · rw [vX a u hx, vI a v hi'] at h
      exact absurd (congrArg Prod.fst h).symm (mix _ _ hx)
    · rw [vX a u hx, vX a v hx'] at h
      exact congrArg Subtype.val (a.2.2.injective (Subtype.ext (congrArg Prod.snd h)))
  -- the permutations of an assignment
  have run : ∀ a (π : Equiv.Perm (State F 3)), Extends π H → (∀ u ∈ U, π (vec (pt a u)) = vec (val a u)) →
      ∀ bs c, bs = [] ∨ (c, bs) ∈ beginnings xs → ab π (c, bs) = val a (c, bs) := by
    intro a π hπ hv bs
    induction bs using List.reverseRecOn with
    | nil =>
      intro c _
      rw [v0 a _ (hnil c)]
      rfl
    | append_singleton bs b ih =>
      intro c hc
      have hc : (c, bs ++ [b]) ∈ beginnings xs := hc.resolve_left (by simp)
      have hb : bs = [] ∨ (c, bs) ∈ beginnings xs := by
        by_cases h : bs = []
        · exact Or.inl h
        · exact Or.inr (parent_mem_beginnings hc h)
      have e1 : ab π (c, bs ++ [b]) = Spec.onTriples π (add (ab π (c, bs)) b) := absorb_snoc _ _ _ _
      rw [e1, ih c hb]
      refine vec_inj ?_
      rw [vec_onTriples]
      by_cases hu : (c, bs ++ [b]) ∈ U
      · rw [← hv _ hu, hpt]
      · have ha : Asked π₀ H c (bs ++ [b]) := by
          by_contra h
          exact hu (Finset.mem_filter.2 ⟨hc, h⟩)
        obtain ⟨h1, e, he, h2⟩ := asked_snoc.1 ha
        have h3 : (c, bs) ∉ U := fun h => hUn _ h h1
        have e2 : ab π₀ (c, bs ++ [b]) = Spec.onTriples π₀ (add (ab π₀ (c, bs)) b) := absorb_snoc _ _ _ _
        rw [v0 a _ hu, v0 a _ h3, e2, vec_onTriples, ← h2, hπ e he, h₀ e he]
  -- counting
  let P : A → Finset (Equiv.Perm (State F 3)) := fun a =>
    Finset.univ.filter fun π => Extends π H ∧ ∀ u ∈ U, π (vec (pt a u)) = vec (val a u)
  have cP : ∀ a, {π : Equiv.Perm (State F 3) | Extends π H}.ncard ≤ (P a).card * (q ^ 3) ^ (I.card + xs.card) := by
    intro a
    have := count_values H U (fun u => vec (pt a u)) (fun u => vec (val a u)) (ptH a) (valH a) (ptI a) (valI a)
    rw [hcardU, card_state, hq, ← pow_succ] at this
    refine this.trans (le_of_eq ?_)
    congr 1
    rw [← Set.ncard_coe_finset]
    congr 1
    ext π
    simp [P]
  have dis : ∀ a ∈ (Finset.univ : Finset A), ∀ b ∈ (Finset.univ : Finset A), a ≠ b → Disjoint (P a) (P b) := by
    intro a _ b _ hab'
    rw [Finset.disjoint_left]
    intro π h1 h2
    obtain ⟨-, h1, h1'⟩ := Finset.mem_filter.1 h1
    obtain ⟨-, h2, h2'⟩ := Finset.mem_filter.1 h2
    have key : ∀ u ∈ U, val a u = val b u := fun u hu =>
      (run a π h1 h1' u.2 u.1 (Or.inr (hUb u hu))).symm.trans (run b π h2 h2' u.2 u.1 (Or.inr (hUb u hu)))
    apply hab'
    refine Prod.ext ?_ (Prod.ext ?_ ?_)
    · ext ⟨u, hu⟩
      have := key u (Finset.mem_filter.1 hu).1
      rw [vI a u hu, vI b u hu] at this
      exact congrArg Prod.fst this
    · funext ⟨u, hu⟩
      have := key u (Finset.mem_filter.1 hu).1
      rw [vI a u hu, vI b u hu] at this
      exact congrArg Prod.snd this
    · ext1 ⟨u, hu⟩
      have := key u (hxU u hu)
      rw [vX a u hu, vX b u hu] at this
      exact Subtype.ext (congrArg Prod.snd this)
  have sub : (Finset.univ.biUnion P).card ≤ {π : Equiv.Perm (State F 3) | Extends π H ∧
      ∀ x ∈ xs, (absorb (Spec.onTriples π) (x.1, 0, 0) x.2).1 = d x}.ncard := by
    rw [← Set.ncard_coe_finset]
    refine Set.ncard_le_ncard ?_ (Set.toFinite _)
    intro π hπ
    obtain ⟨a, -, ha⟩ := Finset.mem_biUnion.1 (Finset.mem_coe.1 hπ)
    obtain ⟨-, h1, h2⟩ := Finset.mem_filter.1 ha
    refine ⟨h1, fun x hx => ?_⟩
    have := run a π h1 h2 x.2 x.1 (Or.inr (hUb x (hxU x hx)))
    rw [vX a x hx] at this
    exact congrArg Prod.fst this
  refine (Nat.mul_le_mul_right _ hA).trans (le_trans ?_ (Nat.mul_le_mul_right _ sub))
  rw [Finset.card_biUnion dis, Finset.sum_mul, ← Finset.card_univ, ← smul_eq_mul]
  exact Finset.card_nsmul_le_sum _ _ _ fun a _ => cP a

end

/-- Bernoulli's inequality for falling factorials. -/
theorem falling_ge {q a i : ℕ} (hq : 0 < q) (h : a + i ≤ q) : (1 - (i : ℚ) * (a + i) / q) * (q : ℚ) ^ i ≤ ((q - a).descFactorial i : ℕ) := by
  have h1 := one_add_mul_le_pow (a := - (((a : ℚ) + i) / q)) (by
    have : ((a : ℚ) + i) / q ≤ 1 := by
      rw [div_le_one (by exact_mod_cast hq)]
      exact_mod_cast h
    linarith) i
  have h2 : (q - (a + i)) ^ i ≤ (q - a).descFactorial i :=
    (Nat.pow_le_pow_left (by omega) i).trans (Nat.pow_sub_le_descFactorial (q - a) i)
  have h3 : (((q - (a + i) : ℕ) : ℚ)) = q * (1 + - (((a : ℚ) + i) / q)) := by
    rw [Nat.cast_sub h]
    have : (q : ℚ) ≠ 0 := by exact_mod_cast hq.ne'
    push_cast
    field_simp
    ring
  have h4 : (((q - (a + i)) ^ i : ℕ) : ℚ) ≤ ((q - a).descFactorial i : ℕ) := by exact_mod_cast h2
  rw [Nat.cast_pow, h3, mul_pow] at h4
  refine le_trans ?_ h4
  rw [mul_comm]
  refine mul_le_mul_of_nonneg_left (le_trans (le_of_eq ?_) h1) (by positivity)
  ring

/-- The bound as an error term. -/
theorem error_le {q R n m i σ N T : ℕ} (hq : 0 < q) (hi : i + m ≤ σ)
    (h : (q - (R + 2 * n + m)).descFactorial i * (q ^ 2) ^ i * (q ^ 2 - n).descFactorial m * N ≤ T * (q ^ 3) ^ (i + m)) :
    N * q ≤ T * q ^ (m + 1) + σ * (σ + 2 * n + R) * N := by
  by_cases hbig : q ≤ σ * (σ + 2 * n + R)
  · calc N * q ≤ N * (σ * (σ + 2 * n + R)) := Nat.mul_le_mul_left _ hbig
      _ = σ * (σ + 2 * n + R) * N := Nat.mul_comm _ _
      _ ≤ _ := Nat.le_add_left _ _
  push Not at hbig
  rcases Nat.eq_zero_or_pos σ with rfl | hσ
  · obtain ⟨rfl, rfl⟩ : i = 0 ∧ m = 0 := by omega
    simp at h
    simp
    exact Nat.mul_le_mul_right _ h
  have hs : σ + 2 * n + R < q := lt_of_le_of_lt (Nat.le_mul_of_pos_left _ hσ) hbig
  have hq2 : q ≤ q ^ 2 := Nat.le_self_pow (by norm_num) q
  have b1 := falling_ge (q := q) (a := R + 2 * n + m) (i := i) hq (by omega)
  have b2 := falling_ge (q := q ^ 2) (a := n) (i := m) (pow_pos hq 2) (by omega)
  have hq0 : (0 : ℚ) < q := by exact_mod_cast hq
  have hq1 : (1 : ℚ) ≤ q := by exact_mod_cast hq
  set x : ℚ := (i : ℚ) * (((R + 2 * n + m : ℕ) : ℚ) + i) / q with hx
  set y : ℚ := (m : ℚ) * ((n : ℚ) + m) / ((q ^ 2 : ℕ) : ℚ) with hy
  have hx0 : 0 ≤ x := by positivity
  have hy0 : 0 ≤ y := by positivity
  have hxy : (x + y) * q ≤ σ * (σ + 2 * n + R) := by
    have e1 : x * q = i * (((R + 2 * n + m : ℕ) : ℚ) + i) := by rw [hx]; field_simp
    have e2 : y * q ≤ m * ((n : ℚ) + m) := by
      have : y * q = m * ((n : ℚ) + m) / q := by rw [hy]; push_cast; field_simp
      rw [this]
      exact div_le_self (by positivity) hq1
    have e3 : i * (R + 2 * n + m + i) + m * (n + m) ≤ σ * (σ + 2 * n + R) := by
      calc i * (R + 2 * n + m + i) + m * (n + m) ≤ i * (σ + 2 * n + R) + m * (σ + 2 * n + R) :=
            Nat.add_le_add (Nat.mul_le_mul_left _ (by omega)) (Nat.mul_le_mul_left _ (by omega))
        _ = (i + m) * (σ + 2 * n + R) := by ring
        _ ≤ _ := Nat.mul_le_mul_right _ hi
    have e3 : (i : ℚ) * ((R + 2 * n + m : ℕ) + i) + m * (n + m) ≤ σ * (σ + 2 * n + R) := by exact_mod_cast e3
    linarith
  have hx1 : x + y ≤ 1 := by
    have : (σ * (σ + 2 * n + R) : ℚ) ≤ q := by exact_mod_cast hbig.le
    nlinarith
  have hmul : (1 - (x + y)) * ((q : ℚ) ^ i * ((q : ℚ) ^ 2) ^ m) ≤
      ((q - (R + 2 * n + m)).descFactorial i : ℕ) * ((q ^ 2 - n).descFactorial m : ℕ) := by
    have c2 : (((q ^ 2 : ℕ) : ℚ)) = (q : ℚ) ^ 2 := by push_cast; rfl
    rw [c2] at b2
    calc (1 - (x + y)) * ((q : ℚ) ^ i * ((q : ℚ) ^ 2) ^ m) ≤ ((1 - x) * (1 - y)) * ((q : ℚ) ^ i * ((q : ℚ) ^ 2) ^ m) := by
          refine mul_le_mul_of_nonneg_right ?_ (by positivity)
          nlinarith
      _ = ((1 - x) * (q : ℚ) ^ i) * ((1 - y) * ((q : ℚ) ^ 2) ^ m) := by ring
      _ ≤ _ := mul_le_mul b1 b2 (mul_nonneg (by linarith) (by positivity)) (by positivity)
  have h' : (((q - (R + 2 * n + m)).descFactorial i : ℕ) : ℚ) * ((q : ℚ) ^ 2) ^ i * ((q ^ 2 - n).descFactorial m : ℕ) * N ≤
      T * ((q : ℚ) ^ 3) ^ (i + m) := by exact_mod_cast h
  have key : (1 - (x + y)) * N ≤ T * (q : ℚ) ^ m := by
    have hp : (0 : ℚ) < (q : ℚ) ^ (3 * i + 2 * m) := by positivity
    refine le_of_mul_le_mul_right ?_ hp
    calc (1 - (x + y)) * N * (q : ℚ) ^ (3 * i + 2 * m) = (1 - (x + y)) * ((q : ℚ) ^ i * ((q : ℚ) ^ 2) ^ m) * (((q : ℚ) ^ 2) ^ i * N) := by
          ring
      _ ≤ _ := mul_le_mul_of_nonneg_right hmul (by positivity)
      _ ≤ T * ((q : ℚ) ^ 3) ^ (i + m) := by refine le_trans (le_of_eq ?_) h'; ring
      _ = _ := by ring
  have fin : (N : ℚ) * q ≤ T * (q : ℚ) ^ (m + 1) + σ * (σ + 2 * n + R) * N := by
    have k1 := mul_le_mul_of_nonneg_right key hq0.le
    have k2 := mul_le_mul_of_nonneg_right hxy (Nat.cast_nonneg (α := ℚ) N)
    have k3 : T * (q : ℚ) ^ m * q = T * (q : ℚ) ^ (m + 1) := by ring
    rw [k3] at k1
    nlinarith
  exact_mod_cast fin

section
variable [Fintype F] [DecidableEq F]

/-- The same with an error term: `σ` bounds the number of beginnings. -/
theorem digests_error {q : ℕ} (hq : Fintype.card F = q) {H : List (Entry (State F 3))} {roots : Finset F}
    (hg : Good (fun s => s 0) roots H) {π₀ : Equiv.Perm (State F 3)} (h₀ : Extends π₀ H) {xs : Finset (F × List (F × F))}
    (hroot : ∀ x ∈ xs, x.1 ∈ roots) (hne : ∀ x ∈ xs, x.2 ≠ [])
    (hlen : ∀ x ∈ xs, ∀ y ∈ xs, x.1 = y.1 → x.2.length = y.2.length) (hnew : ∀ x ∈ xs, ¬ Asked π₀ H x.1 x.2)
    (d : F × List (F × F) → F) {σ n : ℕ} (hσ : ∑ x ∈ xs, x.2.length ≤ σ) (hn : H.length ≤ n) :
    {π : Equiv.Perm (State F 3) | Extends π H}.ncard * q ≤
      {π : Equiv.Perm (State F 3) | Extends π H ∧
        ∀ x ∈ xs, (absorb (Spec.onTriples π) (x.1, 0, 0) x.2).1 = d x}.ncard * q ^ (xs.card + 1) +
      σ * (σ + 2 * n + roots.card) * {π : Equiv.Perm (State F 3) | Extends π H}.ncard := by
  obtain ⟨i, hi, h⟩ := digests_ge hq hg h₀ hroot hne hlen hnew d
  have hq0 : 0 < q := hq ▸ Fintype.card_pos
  refine (error_le hq0 ((hi.trans (card_beginnings xs)).trans hσ) h).trans (Nat.add_le_add_left (Nat.mul_le_mul_right _
    (Nat.mul_le_mul_left _ ?_)) _)
  omega

end

end Props
