import Verif.Base.Mds
import Verif.Base.Cauchy
import Mathlib.Algebra.BigOperators.Fin
import Mathlib.Tactic.FieldSimp
import Mathlib.Tactic.Ring

set_option linter.unusedSectionVars false
set_option linter.unusedSimpArgs false

namespace Base.MdsGen

variable {F G : Type} [Field F] [DecidableEq F]

theorem ok_bind' {α β : Type} (a : α) (f : α → Except Panic β) :
    ((Except.ok a : Except Panic α) >>= f) = f a := rfl

theorem err_bind' {α β : Type} (e : Panic) (f : α → Except Panic β) :
    ((Except.error e : Except Panic α) >>= f) = .error e := rfl

/-! ### Duplicate detection -/

omit [Field F] in
theorem dedup_length_le (l : List F) : (dedup l).length ≤ l.length := by
  induction l using dedup.induct with
  | case1 => simp [dedup]
  | case2 x => simp [dedup]
  | case3 x l ih => simp only [dedup, if_true, List.length_cons] at ih ⊢; omega
  | case4 x y l h ih => simp only [dedup, if_neg h, List.length_cons] at ih ⊢; omega

omit [Field F] in
/-- On a list whose neighbours decide equality of everything (a sorted one), `dedup` keeps the length
exactly when there is no repetition. -/
theorem dedup_length_iff (le : F → F → Bool) (anti : ∀ a b, le a b → le b a → a = b)
    (l : List F) (hs : l.Pairwise (fun a b => le a b)) :
    (dedup l).length = l.length ↔ l.Nodup := by
  induction l using dedup.induct with
  | case1 => simp [dedup]
  | case2 x => simp [dedup]
  | case3 x l ih =>
    have := dedup_length_le (x :: l)
    simp only [dedup, if_true, List.length_cons] at this ⊢
    constructor
    · intro h; omega
    · intro h; simp at h
  | case4 x y l h ih =>
    simp only [dedup, if_neg h, List.length_cons, List.nodup_cons] at ih ⊢
    have hs' := (List.pairwise_cons.mp hs)
    have ih' := ih hs'.2
    have hx : x ∉ y :: l := by
      intro hm
      rcases List.mem_cons.mp hm with e | e
      · exact h e
      · have h1 := hs'.1 y (by simp)
        have h2 := (List.pairwise_cons.mp hs'.2).1 x e
        exact h (anti x y h1 h2)
    constructor
    · intro hh; exact ⟨hx, ih'.mp (by omega)⟩
    · intro hh; rw [ih'.mpr hh.2]

omit [Field F] in
theorem accepts_iff (le : F → F → Bool) (total : ∀ a b, le a b || le b a)
    (trans : ∀ a b c, le a b → le b c → le a c) (anti : ∀ a b, le a b → le b a → a = b)
    (l : List F) : accepts le l = true ↔ l.Nodup := by
  have hp := List.perm_insertionSort (fun a b => le a b = true) l
  have : Std.Total (fun a b => le a b = true) := ⟨fun a b => by simpa using total a b⟩
  have : IsTrans F (fun a b => le a b = true) := ⟨trans⟩
  have hs := List.pairwise_insertionSort (fun a b => le a b = true) l
  unfold accepts
  rw [beq_iff_eq, ← hp.length_eq, eq_comm, dedup_length_iff le anti _ hs, hp.nodup_iff]

/-! ### Drawing batches -/

theorem drawN_length (draw : G → Except Panic (F × G)) (n : ℕ) (g g' : G) (l : List F)
    (h : drawN draw n g = .ok (l, g')) : l.length = n := by
  induction n generalizing g l with
  | zero => simp only [drawN, Except.ok.injEq, Prod.mk.injEq] at h; rw [← h.1]; rfl
  | succ n ih =>
    simp only [drawN] at h
    cases hn : draw g with
    | error e => rw [hn] at h; simp [err_bind'] at h
    | ok v =>
      rw [hn, ok_bind'] at h
      cases ht : drawN draw n v.2 with
      | error e => rw [ht] at h; simp [err_bind'] at h
      | ok w =>
        rw [ht, ok_bind'] at h
        simp only [pure, Except.pure, Except.ok.injEq, Prod.mk.injEq] at h
        rw [← h.1, List.length_cons, ih v.2 w.1 (by rw [ht, ← h.2])]

theorem drawN_append (draw : G → Except Panic (F × G)) (m n : ℕ) (g g1 g2 : G) (l1 l2 : List F)
    (h1 : drawN draw m g = .ok (l1, g1)) (h2 : drawN draw n g1 = .ok (l2, g2)) :
    drawN draw (m + n) g = .ok (l1 ++ l2, g2) := by
  induction m generalizing g l1 with
  | zero =>
    simp only [drawN, Except.ok.injEq, Prod.mk.injEq] at h1
    rw [← h1.1, h1.2, Nat.zero_add]; simpa using h2
  | succ m ih =>
    rw [Nat.succ_add]
    simp only [drawN] at h1 ⊢
    cases hn : draw g with
    | error e => rw [hn] at h1; simp [err_bind'] at h1
    | ok v =>
      rw [hn, ok_bind'] at h1
      rw [ok_bind']
      cases ht : drawN draw m v.2 with
      | error e => rw [ht] at h1; simp [err_bind'] at h1
      | ok w =>
        rw [ht, ok_bind'] at h1
        simp only [pure, Except.pure, Except.ok.injEq, Prod.mk.injEq] at h1
        rw [ih v.2 w.1 (by rw [ht, ← h1.2]), ok_bind', ← h1.1]
        rfl

/-- `g'` is reached from `g` by drawing. -/
def Reached (draw : G → Except Panic (F × G)) (g g' : G) : Prop := ∃ n l, drawN draw n g = .ok (l, g')

theorem Reached.step {draw : G → Except Panic (F × G)} {n : ℕ} {g g1 g' : G} {l : List F}
    (h : drawN draw n g = .ok (l, g1)) (h' : Reached draw g1 g') : Reached draw g g' := by
  obtain ⟨m, l', h'⟩ := h'
  exact ⟨n + m, l ++ l', drawN_append draw _ _ _ _ _ _ _ h h'⟩

theorem drawN_error (draw : G → Except Panic (F × G)) (n : ℕ) (g : G) (e : Panic)
    (h : drawN draw n g = .error e) : ∃ g', Reached draw g g' ∧ draw g' = .error e := by
  induction n generalizing g with
  | zero => simp [drawN] at h
  | succ n ih =>
    simp only [drawN] at h
    cases hn : draw g with
    | error e' => rw [hn, err_bind'] at h; cases h; exact ⟨g, ⟨0, [], rfl⟩, hn⟩
    | ok v =>
      rw [hn, ok_bind'] at h
      cases ht : drawN draw n v.2 with
      | error e' =>
        rw [ht, err_bind'] at h; cases h
        obtain ⟨g', h1, h2⟩ := ih _ ht
        have hd : drawN draw 1 g = .ok ([v.1], v.2) := by
          simp only [drawN, hn, ok_bind', pure, Except.pure]
        exact ⟨g', h1.step hd, h2⟩
      | ok w => rw [ht, ok_bind'] at h; simp [pure, Except.pure] at h

/-- The `j`-th group of `n` values. -/
def chunk (l : List F) (n j : ℕ) : List F := (l.drop (j * n)).take n

theorem chunk_append_left (l1 l2 : List F) (n j : ℕ) (h : (j + 1) * n ≤ l1.length) :
    chunk (l1 ++ l2) n j = chunk l1 n j := by
  unfold chunk
  have : j * n ≤ l1.length := le_trans (Nat.mul_le_mul_right n (Nat.le_succ j)) h
  rw [List.drop_append_of_le_length this, List.take_append_of_le_length]
  rw [List.length_drop]
  have e : (j + 1) * n = j * n + n := by ring
  omega

theorem chunk_append_right (l1 l2 : List F) (n k j : ℕ) (h : l1.length = k * n) :
    chunk (l1 ++ l2) n (k + j) = chunk l2 n j := by
  unfold chunk
  rw [show (k + j) * n = l1.length + j * n by rw [h]; ring, List.drop_append]
  rw [List.drop_eq_nil_of_le (by omega)]
  simp

variable (le : F → F → Bool) (total : ∀ a b, le a b || le b a)
  (trans : ∀ a b c, le a b → le b c → le a c) (anti : ∀ a b, le a b → le b a → a = b)

include total trans anti in
theorem sample_ok (draw : G → Except Panic (F × G)) (T fuel : ℕ) (g g' : G) (xs ys : List F)
    (h : sample draw le T fuel g = .ok (xs, ys, g')) :
    ∃ k l, drawN draw ((k + 1) * (2 * T)) g = .ok (l, g') ∧
      (∀ j, j < k → ¬ (chunk l (2 * T) j).Nodup) ∧ (chunk l (2 * T) k).Nodup ∧
      xs = (chunk l (2 * T) k).take T ∧ ys = (chunk l (2 * T) k).drop T := by
  induction fuel generalizing g with
  | zero => simp [sample] at h
  | succ fuel ih =>
    simp only [sample] at h
    cases hd : drawN draw (2 * T) g with
    | error e => rw [hd, err_bind'] at h; cases h
    | ok v =>
      rw [hd, ok_bind'] at h
      have hlen := drawN_length draw _ _ _ v.1 hd
      by_cases ha : accepts le v.1 = true
      · rw [if_pos ha] at h
        simp only [pure, Except.pure, Except.ok.injEq, Prod.mk.injEq] at h
        have hc : chunk v.1 (2 * T) 0 = v.1 := by
          simp [chunk, List.take_of_length_le hlen.le]
        refine ⟨0, v.1, ?_, by simp, ?_, ?_, ?_⟩
        · rw [Nat.zero_add, one_mul, hd, ← h.2.2]
        · rw [hc]; exact (accepts_iff le total trans anti _).mp ha
        · rw [hc, h.1]
        · rw [hc, h.2.1]
      · rw [if_neg ha] at h
        obtain ⟨k, l, h1, h2, h3, h4, h5⟩ := ih v.2 h
        have hl1 : v.1.length = 1 * (2 * T) := by rw [hlen, one_mul]
        refine ⟨k + 1, v.1 ++ l, ?_, ?_, ?_, ?_, ?_⟩
        · rw [show (k + 1 + 1) * (2 * T) = 2 * T + (k + 1) * (2 * T) by ring]
          exact drawN_append draw _ _ _ _ _ _ _ hd h1
        · intro j hj
          rcases Nat.eq_zero_or_pos j with rfl | hpos
          · rw [chunk_append_left _ _ _ _ (by rw [Nat.zero_add]; exact hl1.ge)]
            have hc : chunk v.1 (2 * T) 0 = v.1 := by
              simp [chunk, List.take_of_length_le hlen.le]
            rw [hc]
            exact fun hn => ha ((accepts_iff le total trans anti _).mpr hn)
          · obtain ⟨j', rfl⟩ : ∃ q, j = 1 + q := ⟨j - 1, by omega⟩
            rw [chunk_append_right _ _ _ _ _ hl1]
            exact h2 j' (by omega)
        all_goals rw [Nat.add_comm k 1, chunk_append_right _ _ _ _ _ hl1]
        · exact h3
        · exact h4
        · exact h5

theorem sample_error (draw : G → Except Panic (F × G)) (T fuel : ℕ) (g : G) (e : Panic)
    (h : sample draw le T fuel g = .error e) :
    e = .diverge ∨ ∃ g', Reached draw g g' ∧ draw g' = .error e := by
  induction fuel generalizing g with
  | zero => left; simp only [sample, Except.error.injEq] at h; exact h.symm
  | succ fuel ih =>
    simp only [sample] at h
    cases hd : drawN draw (2 * T) g with
    | error e' => rw [hd, err_bind'] at h; cases h; exact Or.inr (drawN_error draw _ _ _ hd)
    | ok v =>
      rw [hd, ok_bind'] at h
      by_cases ha : accepts le v.1 = true
      · rw [if_pos ha] at h; cases h
      · rw [if_neg ha] at h
        rcases ih _ h with h1 | ⟨g', h1, h2⟩
        · exact Or.inl h1
        · exact Or.inr ⟨g', h1.step hd, h2⟩

/-- Number of repetition-free groups among the first `k`. -/
def goodCount (l : List F) (n k : ℕ) : ℕ :=
  ((List.range k).filter fun j => (chunk l n j).Nodup).length

theorem goodCount_append (l1 l2 : List F) (n k1 k2 : ℕ) (h : l1.length = k1 * n) :
    goodCount (l1 ++ l2) n (k1 + k2) = goodCount l1 n k1 + goodCount l2 n k2 := by
  unfold goodCount
  rw [List.range_add, List.filter_append, List.length_append, List.filter_map, List.length_map]
  congr 2
  · apply List.filter_congr
    intro j hj
    have : (j + 1) * n ≤ l1.length := by
      rw [h]; exact Nat.mul_le_mul_right n (List.mem_range.mp hj)
    rw [chunk_append_left _ _ _ _ this]
  · apply List.filter_congr
    intro j _
    simp only [Function.comp]
    rw [chunk_append_right _ _ _ _ _ h]

theorem goodCount_bad (l : List F) (n k : ℕ) (h1 : ∀ j, j < k → ¬ (chunk l n j).Nodup)  :
    goodCount l n k = 0 := by
  unfold goodCount
  rw [List.length_eq_zero_iff, List.filter_eq_nil_iff]
  intro j hj
  simpa using h1 j (List.mem_range.mp hj)

theorem goodCount_succ (l : List F) (n k : ℕ) :
    goodCount l n (k + 1) = goodCount l n k + if (chunk l n k).Nodup then 1 else 0 := by
  unfold goodCount
  rw [List.range_succ, List.filter_append, List.length_append]
  congr 1
  by_cases h : (chunk l n k).Nodup <;> simp [h]

include total trans anti in
theorem select_ok (draw : G → Except Panic (F × G)) (T fuel sel : ℕ) (g g' : G) (xs ys : List F)
    (m : Fin T → Fin T → F) (h : select draw le T fuel sel g = .ok (xs, ys, g', m)) :
    ∃ k l, drawN draw ((k + 1) * (2 * T)) g = .ok (l, g') ∧
      goodCount l (2 * T) k = sel ∧ (chunk l (2 * T) k).Nodup ∧
      xs = (chunk l (2 * T) k).take T ∧ ys = (chunk l (2 * T) k).drop T ∧
      cauchy T xs ys = .ok m := by
  induction sel generalizing g with
  | zero =>
    simp only [select] at h
    cases hs : sample draw le T fuel g with
    | error e => rw [hs, err_bind'] at h; cases h
    | ok v =>
      obtain ⟨a, b, c⟩ := v
      rw [hs, ok_bind'] at h
      simp only at h
      cases hc : cauchy T a b with
      | error e => rw [hc, err_bind'] at h; cases h
      | ok w =>
        rw [hc, ok_bind'] at h
        simp only [pure, Except.pure, Except.ok.injEq, Prod.mk.injEq] at h
        obtain ⟨rfl, rfl, rfl, rfl⟩ := h
        obtain ⟨k, l, h1, h2, h3, h4, h5⟩ := sample_ok le total trans anti draw T fuel g _ _ _ hs
        exact ⟨k, l, h1, goodCount_bad _ _ _ h2, h3, h4, h5, hc⟩
  | succ sel ih =>
    simp only [select] at h
    cases hs : sample draw le T fuel g with
    | error e => rw [hs, err_bind'] at h; cases h
    | ok v =>
      obtain ⟨a, b, c⟩ := v
      rw [hs, ok_bind'] at h
      simp only at h
      obtain ⟨k1, l1, p1, p2, p3, -, -⟩ := sample_ok le total trans anti draw T fuel g _ _ _ hs
      obtain ⟨k2, l2, q1, q2, q3, q4, q5, q6⟩ := ih c h
      have hl1 := drawN_length draw _ _ _ _ p1
      refine ⟨(k1 + 1) + k2, l1 ++ l2, ?_, ?_, ?_, ?_, ?_, q6⟩
      · rw [show (k1 + 1 + k2 + 1) * (2 * T) = (k1 + 1) * (2 * T) + (k2 + 1) * (2 * T) by ring]
        exact drawN_append draw _ _ _ _ _ _ _ p1 q1
      · rw [goodCount_append _ _ _ _ _ hl1, goodCount_succ, goodCount_bad _ _ _ p2, q2, if_pos p3]
        omega
      all_goals rw [chunk_append_right _ _ _ _ _ hl1]
      · exact q3
      · exact q4
      · exact q5

/-! ### The matrices -/

/-- The two halves of a repetition-free batch are disjoint families of distinct elements. -/
theorem halves (T : ℕ) (l : List F) (hl : l.length = 2 * T) (hn : l.Nodup) :
    Function.Injective (fun i : Fin T => (l.take T).getD i 0) ∧
      Function.Injective (fun i : Fin T => (l.drop T).getD i 0) := by
  have h1 : ∀ i : Fin T, (l.take T).getD i 0 = l.get ⟨i, by omega⟩ := by
    intro i
    simp [List.getD_eq_getElem?_getD, List.getElem?_take, i.isLt, List.getElem?_eq_getElem
      (show i.val < l.length by omega)]
  have h2 : ∀ i : Fin T, (l.drop T).getD i 0 = l.get ⟨T + i, by omega⟩ := by
    intro i
    simp [List.getD_eq_getElem?_getD, List.getElem?_eq_getElem
      (show T + i.val < l.length by omega)]
  constructor
  · intro i j hij
    simp only [h1] at hij
    have := List.nodup_iff_injective_get.mp hn hij
    simp only [Fin.mk.injEq] at this
    exact Fin.ext this
  · intro i j hij
    simp only [h2] at hij
    have := List.nodup_iff_injective_get.mp hn hij
    simp only [Fin.mk.injEq] at this
    exact Fin.ext (by omega)

theorem lagrange_fold (j : ℕ) (xj x : F) (l : List F) : ∀ (k : ℕ) (acc : F),
    (∀ i (h : i < l.length), k + i ≠ j → xj - l[i] ≠ 0) →
    (l.zipIdx k).foldlM (fun acc (xm, m) =>
      if m = j then (.ok acc : Except Panic F)
      else
        let denominator := xj - xm
        if denominator = 0 then .error .invertZero
        else .ok (acc * (x - xm) * denominator⁻¹)) acc =
      .ok (acc * ((l.zipIdx k).map fun (q : F × ℕ) =>
        if q.2 = j then 1 else (x - q.1) * (xj - q.1)⁻¹).prod) := by
  induction l with
  | nil => intro k acc _; simp [pure, Except.pure]
  | cons a l ih =>
    intro k acc h
    rw [List.zipIdx_cons, List.foldlM_cons, List.map_cons, List.prod_cons]
    by_cases hk : k = j
    · simp only [if_pos hk, ok_bind']
      have := ih (k + 1) acc (fun i hi hne => by
        have := h (i + 1) (by simpa using hi) (by omega)
        rwa [List.getElem_cons_succ] at this)
      simp only at this
      rw [this, one_mul]
    · have h0 := h 0 (by simp) (by simpa using hk)
      simp only [List.getElem_cons_zero] at h0
      simp only [if_neg hk, if_neg h0, ok_bind']
      have := ih (k + 1) (acc * (x - a) * (xj - a)⁻¹) (fun i hi hne => by
        have := h (i + 1) (by simpa using hi) (by omega)
        rwa [List.getElem_cons_succ] at this)
      simp only at this
      rw [this, mul_assoc acc, mul_assoc acc]

/-- The closure `l` computes the Lagrange basis value and does not panic on distinct nodes. -/
theorem lagrange_ok (T : ℕ) (xs : List F) (hl : xs.length = T)
    (hinj : Function.Injective (fun i : Fin T => xs.getD i 0)) (j : Fin T) (x : F) :
    lagrange xs j x = .ok (lag (fun i : Fin T => xs.getD i 0) j x) := by
  subst hl
  have hget : ∀ i (h : i < xs.length), xs[i] = xs.getD i 0 := by
    intro i h; simp [List.getD_eq_getElem?_getD, List.getElem?_eq_getElem h]
  have h := lagrange_fold j.val (xs.getD j 0) x xs 0 1 (by
    intro i hi hne
    rw [hget i hi, sub_ne_zero]
    intro hc
    have := @hinj j ⟨i, hi⟩ hc
    apply hne
    rw [this]; simp)
  unfold lagrange
  rw [h, one_mul, lag]
  congr 1
  have hmap : (xs.zipIdx.map fun (q : F × ℕ) =>
      if q.2 = j.val then 1 else (x - q.1) * (xs.getD j 0 - q.1)⁻¹) =
      List.ofFn fun m : Fin xs.length => if m = j then 1 else
        (x - xs.getD m 0) * (xs.getD j 0 - xs.getD m 0)⁻¹ := by
    apply List.ext_getElem
    · simp
    · intro i h1 h2
      simp only [List.length_map, List.length_zipIdx] at h1
      simp [← hget i h1, Fin.ext_iff]
  rw [hmap, List.prod_ofFn, ← Finset.prod_erase (s := Finset.univ) (a := j) (by simp)]
  refine Finset.prod_congr rfl fun m hm => ?_
  rw [if_neg (Finset.ne_of_mem_erase hm)]

theorem mapM_ok {α β : Type} (f : α → Except Panic β) (k : α → β) (l : List α)
    (h : ∀ a ∈ l, f a = .ok (k a)) : l.mapM f = .ok (l.map k) := by
  induction l with
  | nil => rfl
  | cons a l ih =>
    rw [List.mapM_cons, h a (by simp), ok_bind', ih (fun b hb => h b (by simp [hb])), ok_bind']
    rfl

theorem tabulate_ok (T : ℕ) (f : Fin T → Fin T → Except Panic F) (k : Fin T → Fin T → F)
    (h : ∀ i j, f i j = .ok (k i j)) : tabulate T f = .ok k := by
  unfold tabulate
  rw [mapM_ok _ (fun i => (List.finRange T).map fun j => k i j) _
    (fun i _ => mapM_ok _ _ _ fun j _ => h i j), ok_bind']
  simp only [pure, Except.pure]
  congr 1
  funext i j
  simp

theorem inverse_ok (T : ℕ) (xs ys : List F) (hx : xs.length = T) (hy : ys.length = T)
    (hxi : Function.Injective (fun i : Fin T => xs.getD i 0))
    (hyi : Function.Injective (fun i : Fin T => ys.getD i 0)) :
    inverse T xs ys = .ok fun i j =>
      (xs.getD j 0 - -ys.getD i 0) * lag (fun i : Fin T => xs.getD i 0) j (-ys.getD i 0) *
        lag (fun i : Fin T => -ys.getD i 0) i (xs.getD j 0) := by
  have hneg : ∀ i : Fin T, (ys.map fun y => -y).getD i 0 = -ys.getD i 0 := by
    intro i
    have : i.val < ys.length := by omega
    simp [List.getD_eq_getElem?_getD, List.getElem?_eq_getElem this]
  have hni : Function.Injective (fun i : Fin T => (ys.map fun y => -y).getD i 0) := by
    intro i j hij
    simp only [hneg, neg_inj] at hij
    exact hyi hij
  unfold inverse
  apply tabulate_ok
  intro i j
  rw [lagrange_ok T xs hx hxi, ok_bind', lagrange_ok T _ (by simpa using hy) hni, ok_bind']
  simp only [hneg, pure, Except.pure]

end Base.MdsGen
