import Verif.Props.IdealGame

/-!
# A simulator for the permutation

The simulator answers questions to the permutation and its inverse without a permutation. It is given a function `f` from the
calls to the digests, and answers in such a way that the digests of the calls come out as the values of `f`. Used by C106.
-/

set_option linter.unusedVariables false
set_option linter.unusedSectionVars false

namespace Props
open Base Collide Ideal Game

namespace Simulate
variable {F : Type} [Field F] {C : Type}

/-- According to the questions `H`, absorbing pairs from capacity `c` leads to a state. -/
inductive Reach (H : List (Entry (State F 3))) (c : F) : List (F × F) → F × F × F → Prop
  | nil : Reach H c [] (c, 0, 0)
  | snoc {bs : List (F × F)} {s : F × F × F} (b : F × F) (t : F × F × F) :
      Reach H c bs s → (∃ e ∈ H, e.2.1 = vec (add s b) ∧ e.2.2 = vec t) → Reach H c (bs ++ [b]) t

/-- `s` is the last point where the permutation is evaluated for the call of `x`, and the evaluations before are in `H`. -/
def Completes (O : Calls C F) (H : List (Entry (State F 3))) (s : State F 3) (x : C) : Prop :=
  ∃ bs b t, (O.enc x).2 = bs ++ [b] ∧ Reach H (O.enc x).1 bs t ∧ s = vec (add t b)

open Classical in
/-- The simulator: what was asked before is answered as before; the value at the last point of a call has the digest of the
call as first word and otherwise random words; any other answer is random. -/
noncomputable def simulate (O : Calls C F) (f : C → F) (coin : State F 3) (H : List (Entry (State F 3))) :
    Bool × State F 3 → Entry (State F 3)
  | (true, s) =>
    if h : ∃ e ∈ H, e.2.1 = s then (true, s, h.choose.2.2)
    else if h : ∃ x, Completes O H s x then (true, s, ![f h.choose, coin 1, coin 2])
    else (true, s, coin)
  | (false, t) => if h : ∃ e ∈ H, e.2.2 = t then (false, h.choose.2.1, t) else (false, coin, t)

/-- The first `k` steps, newest first, if the permutation is simulated and calls are answered by `f`. -/
noncomputable def simulated (O : Calls C F) (A : List (Event (State F 3) C (Except Panic F)) → Move (State F 3) C) (f : C → F)
    (coins : ℕ → State F 3) : ℕ → List (Event (State F 3) C (Except Panic F))
  | 0 => []
  | k + 1 => (match A (simulated O A f coins k) with
    | .ask q => .asked (simulate O f (coins k) (asks (simulated O A f coins k)) q)
    | .call x => .called x (.ok (f x))) :: simulated O A f coins k

/-! ### Paths -/

theorem Reach.inv {H : List (Entry (State F 3))} {c : F} {bs : List (F × F)} {t : F × F × F} (h : Reach H c bs t) :
    (bs = [] ∧ t = (c, 0, 0)) ∨
      ∃ bs' b s, bs = bs' ++ [b] ∧ Reach H c bs' s ∧ ∃ e ∈ H, e.2.1 = vec (add s b) ∧ e.2.2 = vec t := by
  cases h with
  | nil => exact .inl ⟨rfl, rfl⟩
  | snoc b t h1 h2 => exact .inr ⟨_, b, _, rfl, h1, h2⟩

theorem Reach.nil_eq {H : List (Entry (State F 3))} {c : F} {t : F × F × F} (h : Reach H c [] t) : t = (c, 0, 0) := by
  rcases h.inv with ⟨-, h⟩ | ⟨bs, b, s, h, -⟩
  · exact h
  · simp at h

theorem Reach.of_snoc {H : List (Entry (State F 3))} {c : F} {bs : List (F × F)} {b : F × F} {t : F × F × F}
    (h : Reach H c (bs ++ [b]) t) : ∃ s, Reach H c bs s ∧ ∃ e ∈ H, e.2.1 = vec (add s b) ∧ e.2.2 = vec t := by
  rcases h.inv with ⟨h, -⟩ | ⟨bs', b', s, h, h1, h2⟩
  · simp at h
  · obtain ⟨rfl, h⟩ := List.append_inj' h rfl
    obtain rfl : b = b' := by simpa using h
    exact ⟨s, h1, h2⟩

theorem Reach.mono {H H' : List (Entry (State F 3))} (hH : ∀ e ∈ H, e ∈ H') {c : F} {bs : List (F × F)} {t : F × F × F}
    (h : Reach H c bs t) : Reach H' c bs t := by
  induction h with
  | nil => exact .nil
  | snoc b t _ h2 ih =>
    obtain ⟨e, he, h⟩ := h2
    exact .snoc b t ih ⟨e, hH e he, h⟩

/-- The first word of a state that is reached is the base capacity or a value. -/
theorem Reach.label {H : List (Entry (State F 3))} {c : F} {bs : List (F × F)} {t : F × F × F} (h : Reach H c bs t) :
    t.1 = c ∨ t.1 ∈ labels (fun s : State F 3 => s 0) H := by
  rcases h.inv with ⟨-, rfl⟩ | ⟨bs', b, s, rfl, -, e, he, -, h⟩
  · exact .inl rfl
  · refine .inr (List.mem_flatMap.2 ⟨e, he, ?_⟩)
    rw [h]
    simp [vec]

/-- Permutations with the values in the table go along the same path. -/
theorem Reach.absorb {H : List (Entry (State F 3))} {π : Equiv.Perm (State F 3)} (hπ : Extends π H) {c : F} {bs : List (F × F)}
    {t : F × F × F} (h : Reach H c bs t) : absorb (Spec.onTriples π) (c, 0, 0) bs = t := by
  induction h with
  | nil => rfl
  | snoc b t _ h2 ih =>
    obtain ⟨e, he, h, h'⟩ := h2
    rw [absorb_snoc, ih]
    refine vec_inj ?_
    rw [vec_onTriples, ← h, hπ e he, h']

/-! ### Good tables -/

/-- A proper beginning of calls. -/
def Open (O : Calls C F) (c : F) (bs : List (F × F)) : Prop := ∃ x, (O.enc x).1 = c ∧ bs.length < (O.enc x).2.length

theorem Open.of_snoc {O : Calls C F} {c : F} {bs : List (F × F)} {b : F × F} (h : Open O c (bs ++ [b])) : Open O c bs := by
  obtain ⟨x, h1, h2⟩ := h
  rw [List.length_append] at h2
  exact ⟨x, h1, by omega⟩

/-- The table is part of a permutation, no two proper beginnings lead to the same capacity, and the digests are those of `f`. -/
structure Inv (O : Calls C F) (f : C → F) (H : List (Entry (State F 3))) : Prop where
  perm : ∀ e ∈ H, ∀ e' ∈ H, e.2.1 = e'.2.1 ↔ e.2.2 = e'.2.2
  inj : ∀ c bs t c' bs' t', Reach H c bs t → Open O c bs → Reach H c' bs' t' → Open O c' bs' → t.1 = t'.1 → c = c' ∧ bs = bs'
  digest : ∀ x t, Reach H (O.enc x).1 (O.enc x).2 t → t.1 = f x

theorem Inv.unique {O : Calls C F} {f : C → F} {H : List (Entry (State F 3))} (hI : Inv O f H) {c : F} {bs : List (F × F)}
    {t t' : F × F × F} (h : Reach H c bs t) (h' : Reach H c bs t') : t = t' := by
  induction bs using List.reverseRecOn generalizing t t' with
  | nil => rw [h.nil_eq, h'.nil_eq]
  | append_singleton bs b ih =>
    obtain ⟨s, h1, e, he, h2, h3⟩ := h.of_snoc
    obtain ⟨s', h1', e', he', h2', h3'⟩ := h'.of_snoc
    obtain rfl := ih h1 h1'
    exact vec_inj (h3.symm.trans (((hI.perm e he e' he').1 (h2.trans h2'.symm)).trans h3'))

variable [DecidableEq F]

/-- The first words that a random answer should not have. -/
def used (O : Calls C F) (H : List (Entry (State F 3))) : Finset F := O.roots ∪ (labels (fun s : State F 3 => s 0) H).toFinset

/-- The second words of the values. -/
def rates (H : List (Entry (State F 3))) : Finset F := (H.map fun e => e.2.2 1).toFinset

/-- The random state makes the answer a bad one. -/
def BadCoin (O : Calls C F) (H : List (Entry (State F 3))) : Bool × State F 3 → State F 3 → Prop
  | (true, s), coin => (¬ ∃ e ∈ H, e.2.1 = s) ∧
      (((∃ x, Completes O H s x) ∧ coin 1 ∈ rates H) ∨ ((¬ ∃ x, Completes O H s x) ∧ coin 0 ∈ used O H))
  | (false, t), coin => (¬ ∃ e ∈ H, e.2.2 = t) ∧ coin 0 ∈ used O H

theorem mem_used {O : Calls C F} {H : List (Entry (State F 3))} {k : F} :
    k ∈ used O H ↔ k ∈ O.roots ∨ ∃ e ∈ H, e.2.1 0 = k ∨ e.2.2 0 = k := by
  rw [used, Finset.mem_union, List.mem_toFinset, labels, List.mem_flatMap]
  simp only [List.mem_cons, List.not_mem_nil, or_false, eq_comm]

theorem Reach.used {O : Calls C F} (hv : ∀ x, O.valid x) {H : List (Entry (State F 3))} {c : F} {bs bs' : List (F × F)}
    {t : F × F × F} (h : Reach H c bs t) (ho : Open O c bs') : t.1 ∈ used O H := by
  rw [Simulate.used, Finset.mem_union, List.mem_toFinset]
  obtain ⟨x, hx, -⟩ := ho
  refine h.label.imp_left fun h => ?_
  rw [h, ← hx]
  exact O.root x (hv x)

/-- Adding nothing new changes nothing. -/
theorem Inv.same {O : Calls C F} {f : C → F} {H : List (Entry (State F 3))} (hI : Inv O f H) {e e₀ : Entry (State F 3)}
    (he₀ : e₀ ∈ H) (h : e.2 = e₀.2) : Inv O f (e :: H) := by
  have hm : ∀ e' ∈ e :: H, ∃ e'' ∈ H, e'.2 = e''.2 := by
    intro e' he'
    rcases List.mem_cons.1 he' with rfl | he'
    · exact ⟨e₀, he₀, h⟩
    · exact ⟨e', he', rfl⟩
  have hr : ∀ {c bs t}, Reach (e :: H) c bs t → Reach H c bs t := by
    intro c bs t h
    induction h with
    | nil => exact .nil
    | snoc b t _ h2 ih =>
      obtain ⟨e', he', h⟩ := h2
      obtain ⟨e'', he'', h'⟩ := hm e' he'
      rw [h'] at h
      exact .snoc b t ih ⟨e'', he'', h⟩
  refine ⟨?_, fun c bs t c' bs' t' h1 h2 h3 h4 h5 => hI.inj c bs t c' bs' t' (hr h1) h2 (hr h3) h4 h5,
    fun x t h => hI.digest x t (hr h)⟩
  intro e' he' e'' he''
  obtain ⟨a, ha, h1⟩ := hm e' he'
  obtain ⟨b, hb, h2⟩ := hm e'' he''
  rw [h1, h2]
  exact hI.perm a ha b hb

/-- A new value. -/
theorem perm_cons {H : List (Entry (State F 3))} (hp : ∀ e ∈ H, ∀ e' ∈ H, e.2.1 = e'.2.1 ↔ e.2.2 = e'.2.2) {d : Bool}
    {s t : State F 3} (hs : ∀ e ∈ H, e.2.1 ≠ s) (ht : ∀ e ∈ H, e.2.2 ≠ t) :
    ∀ e ∈ (d, s, t) :: H, ∀ e' ∈ (d, s, t) :: H, e.2.1 = e'.2.1 ↔ e.2.2 = e'.2.2 := by
  intro e he e' he'
  rcases List.mem_cons.1 he with rfl | he <;> rcases List.mem_cons.1 he' with rfl | he'
  · exact ⟨fun _ => rfl, fun _ => rfl⟩
  · exact ⟨fun h => absurd h.symm (hs e' he'), fun h => absurd h.symm (ht e' he')⟩
  · exact ⟨fun h => absurd h (hs e he), fun h => absurd h (ht e he)⟩
  · exact hp e he e' he'

/-- An answer to a question to the inverse is not reached. -/
theorem Inv.backward {O : Calls C F} (hv : ∀ x, O.valid x) {f : C → F} {H : List (Entry (State F 3))} (hI : Inv O f H)
    {s t : State F 3} (hs : s 0 ∉ used O H) (ht : ∀ e ∈ H, e.2.2 ≠ t) : Inv O f ((false, s, t) :: H) := by
  have hr : ∀ bs c u, Reach ((false, s, t) :: H) c bs u → (∃ x, (O.enc x).1 = c ∧ bs.length ≤ (O.enc x).2.length) →
      Reach H c bs u := by
    intro bs
    induction bs using List.reverseRecOn with
    | nil =>
      intro c u h _
      rw [h.nil_eq]
      exact .nil
    | append_singleton bs b ih =>
      intro c u h ho
      obtain ⟨v, h1, e, he, h2, h3⟩ := h.of_snoc
      obtain ⟨x, hx, hl⟩ := ho
      rw [List.length_append, List.length_singleton] at hl
      have h1 := ih c v h1 ⟨x, hx, by omega⟩
      rcases List.mem_cons.1 he with rfl | he
      · exfalso
        have : s 0 = v.1 := congrFun h2 0
        rw [this] at hs
        exact hs (h1.used hv (bs' := bs) ⟨x, hx, by omega⟩)
      · exact .snoc b u h1 ⟨e, he, h2, h3⟩
  have ho : ∀ {c bs}, Open O c bs → ∃ x, (O.enc x).1 = c ∧ bs.length ≤ (O.enc x).2.length :=
    fun ⟨x, h1, h2⟩ => ⟨x, h1, h2.le⟩
  refine ⟨perm_cons hI.perm (fun e he h => ?_) ht, fun c bs t c' bs' t' h1 h2 h3 h4 h5 =>
    hI.inj c bs t c' bs' t' (hr _ _ _ h1 (ho h2)) h2 (hr _ _ _ h3 (ho h4)) h4 h5,
    fun x t h => hI.digest x t (hr _ _ _ h ⟨x, rfl, le_rfl⟩)⟩
  exact hs (mem_used.2 (.inr ⟨e, he, .inl (by rw [h])⟩))

/-- An answer to a question to the permutation. -/
theorem Inv.forward {O : Calls C F} (hv : ∀ x, O.valid x) {f : C → F} {H : List (Entry (State F 3))} (hI : Inv O f H)
    {s t : State F 3} (hs : ∀ e ∈ H, e.2.1 ≠ s) (ht : ∀ e ∈ H, e.2.2 ≠ t)
    (hc : ∀ x, Completes O H s x → t 0 = f x) (hn : (¬ ∃ x, Completes O H s x) → t 0 ∉ used O H) :
    Inv O f ((true, s, t) :: H) := by
  -- one beginning leads to `s`
  have one : ∀ {c c' bs bs' b b' v v'}, Reach H c bs v → Open O c bs → Reach H c' bs' v' → Open O c' bs' →
      s = vec (add v b) → s = vec (add v' b') → c = c' ∧ bs ++ [b] = bs' ++ [b'] := by
    intro c c' bs bs' b b' v v' h1 h2 h3 h4 h5 h6
    have h7 := vec_inj (h5.symm.trans h6)
    obtain ⟨rfl, rfl⟩ := hI.inj c bs v c' bs' v' h1 h2 h3 h4 (by have h8 := congrArg Prod.fst h7; exact h8)
    rw [hI.unique h1 h3] at h7
    rw [add_inj h7]
    exact ⟨rfl, rfl⟩
  have hr : ∀ bs c u, Reach ((true, s, t) :: H) c bs u → (∃ x, (O.enc x).1 = c ∧ bs.length ≤ (O.enc x).2.length) →
      Reach H c bs u ∨ ∃ bs' b v, bs = bs' ++ [b] ∧ Reach H c bs' v ∧ s = vec (add v b) ∧ t = vec u := by
    intro bs
    induction bs using List.reverseRecOn with
    | nil =>
      intro c u h _
      rw [h.nil_eq]
      exact .inl .nil
    | append_singleton bs b ih =>
      intro c u h ho
      obtain ⟨v, h1, e, he, h2, h3⟩ := h.of_snoc
      obtain ⟨x, hx, hl⟩ := ho
      rw [List.length_append, List.length_singleton] at hl
      rcases ih c v h1 ⟨x, hx, by omega⟩ with h1 | ⟨bs', b', w, rfl, k1, k2, k3⟩
      · rcases List.mem_cons.1 he with rfl | he
        · exact .inr ⟨bs, b, v, rfl, h1, h2, h3⟩
        · exact .inl (.snoc b u h1 ⟨e, he, h2, h3⟩)
      · -- the new value would not be the last one
        exfalso
        rw [List.length_append, List.length_singleton] at hl
        have ho : Open O c bs' := ⟨x, hx, by omega⟩
        have hno : ¬ ∃ y, Completes O H s y := by
          rintro ⟨y, ds, d, z, m1, m2, m3⟩
          obtain ⟨m4, m5⟩ := one k1 ho m2 ⟨y, rfl, by rw [m1, List.length_append, List.length_singleton]; omega⟩ k2 m3
          have := O.length x y (hv x) (hv y) (hx.trans m4)
          rw [m1, ← m5, List.length_append, List.length_singleton] at this
          omega
        have hf := hn hno
        have hl0 : t 0 = v.1 := congrFun k3 0
        rcases List.mem_cons.1 he with rfl | he
        · have h0 : s 0 = v.1 := congrFun h2 0
          have h1 : s 0 = w.1 := congrFun k2 0
          rw [hl0, ← h0, h1] at hf
          exact hf (k1.used hv ho)
        · have h0 : e.2.1 0 = v.1 := congrFun h2 0
          exact hf (mem_used.2 (.inr ⟨e, he, .inl (h0.trans hl0.symm)⟩))
  have ho : ∀ {c bs}, Open O c bs → ∃ x, (O.enc x).1 = c ∧ bs.length ≤ (O.enc x).2.length :=
    fun ⟨x, h1, h2⟩ => ⟨x, h1, h2.le⟩
  -- a new proper beginning has a new capacity
  have fresh : ∀ {c bs b v}, Open O c (bs ++ [b]) → Reach H c bs v → s = vec (add v b) → t 0 ∉ used O H := by
    intro c bs b v h1 h2 h3
    refine hn ?_
    rintro ⟨y, ds, d, z, m1, m2, m3⟩
    obtain ⟨m4, m5⟩ := one h2 h1.of_snoc m2 ⟨y, rfl, by rw [m1, List.length_append, List.length_singleton]; omega⟩ h3 m3
    obtain ⟨x, hx, hl⟩ := h1
    have := O.length x y (hv x) (hv y) (hx.trans m4)
    rw [m1, ← m5] at this
    omega
  refine ⟨perm_cons hI.perm hs ht, ?_, ?_⟩
  · intro c bs u c' bs' u' h1 h2 h3 h4 h5
    rcases hr _ _ _ h1 (ho h2) with h1 | ⟨ds, b, v, rfl, k1, k2, k3⟩ <;>
      rcases hr _ _ _ h3 (ho h4) with h3 | ⟨ds', b', v', rfl, k1', k2', k3'⟩
    · exact hI.inj c bs u c' bs' u' h1 h2 h3 h4 h5
    · exfalso
      have e : t 0 = u'.1 := congrFun k3' 0
      have := fresh h4 k1' k2'
      rw [e, ← h5] at this
      exact this (h1.used hv h2)
    · exfalso
      have e : t 0 = u.1 := congrFun k3 0
      have := fresh h2 k1 k2
      rw [e, h5] at this
      exact this (h3.used hv h4)
    · exact one k1 h2.of_snoc k1' h4.of_snoc k2 k2'
  · intro x u h
    rcases hr _ _ _ h ⟨x, rfl, le_rfl⟩ with h | ⟨ds, b, v, h1, k1, k2, k3⟩
    · exact hI.digest x u h
    · have e : t 0 = u.1 := congrFun k3 0
      rw [← e]
      exact hc x ⟨ds, b, v, h1, k1, k2⟩

/-- At most one call is completed. -/
theorem Inv.completes {O : Calls C F} (hv : ∀ x, O.valid x) {f : C → F} {H : List (Entry (State F 3))} (hI : Inv O f H)
    {s : State F 3} {x y : C} (hx : Completes O H s x) (hy : Completes O H s y) : x = y := by
  obtain ⟨bs, b, v, h1, h2, h3⟩ := hx
  obtain ⟨bs', b', v', h1', h2', h3'⟩ := hy
  have h7 := vec_inj (h3.symm.trans h3')
  obtain ⟨hc, rfl⟩ := hI.inj _ bs v _ bs' v' h2 ⟨x, rfl, by rw [h1, List.length_append, List.length_singleton]; omega⟩ h2'
    ⟨y, rfl, by rw [h1', List.length_append, List.length_singleton]; omega⟩ (by have h8 := congrArg Prod.fst h7; exact h8)
  rw [← hc] at h2'
  rw [hI.unique h2 h2'] at h7
  rw [← add_inj h7] at h1'
  exact O.inj x y (hv x) (hv y) (Prod.ext hc (h1.trans h1'.symm))

/-- Without bad coins the table stays good. -/
theorem Inv.step {O : Calls C F} (hv : ∀ x, O.valid x) {f : C → F} {H : List (Entry (State F 3))} (hI : Inv O f H)
    {q : Bool × State F 3} {coin : State F 3} (hb : ¬ BadCoin O H q coin) : Inv O f (simulate O f coin H q :: H) := by
  obtain ⟨d, s⟩ := q
  cases d with
  | false =>
    by_cases h : ∃ e ∈ H, e.2.2 = s
    · simp only [simulate, dif_pos h]
      have h' := h.choose_spec
      exact hI.same h'.1 (Prod.ext rfl h'.2.symm)
    · simp only [simulate, dif_neg h]
      simp only [BadCoin, h, not_false_eq_true, true_and] at hb
      exact hI.backward hv hb fun e he h' => h ⟨e, he, h'⟩
  | true =>
    by_cases h : ∃ e ∈ H, e.2.1 = s
    · simp only [simulate, dif_pos h]
      have h' := h.choose_spec
      exact hI.same h'.1 (Prod.ext h'.2.symm rfl)
    · have hs : ∀ e ∈ H, e.2.1 ≠ s := fun e he h' => h ⟨e, he, h'⟩
      simp only [BadCoin, h, not_false_eq_true, true_and] at hb
      by_cases hx : ∃ x, Completes O H s x
      · simp only [simulate, dif_neg h, dif_pos hx]
        simp only [hx, true_and, not_true, false_and, or_false] at hb
        refine hI.forward hv hs (fun e he h' => hb ?_) (fun x hx' => ?_) fun h' => absurd hx h'
        · refine List.mem_toFinset.2 (List.mem_map.2 ⟨e, he, ?_⟩)
          rw [h']
          rfl
        · rw [hI.completes hv hx' hx.choose_spec]
          rfl
      · simp only [simulate, dif_neg h, dif_neg hx]
        simp only [hx, false_and, not_false_eq_true, true_and, false_or] at hb
        exact hI.forward hv hs (fun e he h' => hb (mem_used.2 (.inr ⟨e, he, .inr (by rw [h'])⟩)))
          (fun x hx' => absurd ⟨x, hx'⟩ hx) fun _ => hb

theorem Inv.empty (O : Calls C F) (hv : ∀ x, O.valid x) (f : C → F) : Inv O f [] := by
  have hr : ∀ {c : F} {bs : List (F × F)} {t : F × F × F}, Reach [] c bs t → bs = [] ∧ t = (c, 0, 0) := by
    intro c bs t h
    rcases h.inv with h | ⟨bs, b, s, -, -, e, he, -⟩
    · exact h
    · exact absurd he List.not_mem_nil
  refine ⟨fun e he => absurd he List.not_mem_nil, ?_, ?_⟩
  · intro c bs t c' bs' t' h1 _ h2 _ h
    obtain ⟨rfl, rfl⟩ := hr h1
    obtain ⟨rfl, rfl⟩ := hr h2
    exact ⟨h, rfl⟩
  · intro x t h
    exact absurd (hr h).1 (O.ne_nil x (hv x))

end Simulate
end Props
