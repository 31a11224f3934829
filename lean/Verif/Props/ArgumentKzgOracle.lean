import Verif.Props.Transcript
import Verif.Props.ArgumentKzg

/-!
# Non-interactive proofs with commitments
-/

set_option linter.unusedSectionVars false

namespace Halo2
open Polynomial

variable {F : Type} [Field F]

instance [Fintype F] : ∀ i, Fintype (Draw F i)
  | .theta => (inferInstance : Fintype F)
  | .betaGamma => (inferInstance : Fintype (F × F))
  | .y => (inferInstance : Fintype F)
  | .x => (inferInstance : Fintype F)
  | .yv => (inferInstance : Fintype (F × F))
  | .u => (inferInstance : Fintype F)

instance : ∀ i, Zero (Draw F i)
  | .theta => (inferInstance : Zero F)
  | .betaGamma => (inferInstance : Zero (F × F))
  | .y => (inferInstance : Zero F)
  | .x => (inferInstance : Zero F)
  | .yv => (inferInstance : Zero (F × F))
  | .u => (inferInstance : Zero F)

namespace KzgScript

/-- The claims of the proof, and the polynomials they are about. -/
noncomputable def claims (K : Key F) (s : KzgScript F) (c : F × F × F × F × F) : List (Query Label F) :=
  K.claims s.values c.1 c.2.1 c.2.2.1 c.2.2.2.1 c.2.2.2.2

/-- What the verifier checks to be zero at the secret. -/
noncomputable def residue (s : KzgScript F) (K : Key F) (c : (F × F × F × F × F) × F × F × F) : F[X] :=
  Shplonk.residue (s.claims K c.1) (K.polynomials s.messages s.quotient c.1.2.2.2.2) s.first s.second c.2.1 c.2.2.1 c.2.2.2

theorem short_messages {s : KzgScript F} {n : ℕ} (h : s.ShortUpTo n .y) : s.messages.Short n :=
  have h0 : Stage.theta.rank ≤ Stage.y.rank := by decide
  have h1 : Stage.betaGamma.rank ≤ Stage.y.rank := by decide
  ⟨fun c => h (.advice c) h0, fun i => h (.input i) h1, fun i => h (.table i) h1, fun i => h (.zPerm i) le_rfl,
    fun i => h (.zLookup i) le_rfl⟩

theorem ShortUpTo.earlier {s : KzgScript F} {n : ℕ} {i j : Stage} (h : s.ShortUpTo n i) (hj : j.rank ≤ i.rank) :
    s.ShortUpTo n j := fun p hp => h p (hp.trans hj)

theorem Short.upTo {s : KzgScript F} {n : ℕ} (h : s.Short n) (i : Stage) : s.ShortUpTo n i := fun p _ => h.part p

theorem quotient_short {s : KzgScript F} {n : ℕ} (h : s.ShortUpTo n .x) : ∀ i, (s.quotient i).degree < n :=
  fun i => h (.quotient i) le_rfl

theorem polynomials_short {s : KzgScript F} {K : Key F} (hω : IsPrimitiveRoot K.ω K.n) (h : s.ShortUpTo K.n .x) (x : F)
    (l : Label) : (K.polynomials s.messages s.quotient x l).degree < K.n :=
  Key.polynomials_degree hω (short_messages (h.earlier (by decide))) (quotient_short h) x l

open Classical in
theorem accepts_residue {G G2 GT : Type} [AddCommGroup G] [Module F G] [AddCommGroup G2] [Module F G2] [AddCommGroup GT]
    [Module F GT] {s : KzgScript F} {K : Key F} (hω : IsPrimitiveRoot K.ω K.n) (hs : s.Short K.n)
    (E : Pairing F G G2 GT) (τ : F) (c : (F × F × F × F × F) × F × F × F) : s.Accepts K E τ c ↔
      c.1.2.2.2.2 ^ K.n ≠ 1 ∧
      Shplonk.vanish (Shplonk.superSet (s.claims K c.1) \ Shplonk.firstSet (s.claims K c.1)) c.2.2.2 ≠ 0 ∧
      (s.residue K c).eval τ = 0 := by
  unfold Accepts
  rw [Key.commitments_eq hω τ E.g (short_messages (hs.upTo _)) (quotient_short (hs.upTo _)),
    Shplonk.accepts_iff E τ (polynomials_short hω (hs.upTo _) _) (h := s.first) (hs.part .first) hs.second]
  rfl

/-! ### Luck -/

/-- A claim is not true. -/
def Wrong (s : KzgScript F) (K : Key F) (c : F × F × F × F × F) : Prop :=
  ∃ q ∈ s.claims K c, (K.polynomials s.messages s.quotient c.2.2.2.2 q.label).eval q.point ≠
    Shplonk.evalOf (s.claims K c) q.label q.point

/-- The challenges of the argument. -/
def five (c : Draws F) : F × F × F × F × F := (Draws.tuple c).1

/-- The challenge hides that something is wrong. -/
def Hides (K : Key F) (s : KzgScript F) (c : Draws F) : Stage → Prop
  | .theta => K.Broken s.messages.advice ∧ ¬ K.BrokenAt s.messages.advice (c .theta)
  | .betaGamma => K.BrokenAt s.messages.advice (c .theta) ∧ ∃ zPerm zLookup,
      K.Vanish ⟨s.messages.advice, s.messages.permuted, zPerm, zLookup⟩ (c .theta) (c .betaGamma).1 (c .betaGamma).2
  | .y => ¬ K.Vanish s.messages (c .theta) (c .betaGamma).1 (c .betaGamma).2 ∧
      K.Combined s.messages (c .theta) (c .betaGamma).1 (c .betaGamma).2 (c .y)
  | .x => c .x = 0 ∨ ¬ K.Combined s.messages (c .theta) (c .betaGamma).1 (c .betaGamma).2 (c .y) ∧
      K.Check s.messages s.quotient (c .theta) (c .betaGamma).1 (c .betaGamma).2 (c .y) (c .x)
  | .yv => s.Wrong K (five c) ∧
      ∃ h, Shplonk.cross (s.claims K (five c)) (K.polynomials s.messages s.quotient (c .x)) h (c .yv).1 (c .yv).2 = 0
  | .u => Shplonk.cross (s.claims K (five c)) (K.polynomials s.messages s.quotient (c .x)) s.first (c .yv).1 (c .yv).2 ≠ 0 ∧
      (Shplonk.cross (s.claims K (five c)) (K.polynomials s.messages s.quotient (c .x)) s.first (c .yv).1
        (c .yv).2).eval (c .u) = 0

/-- The challenge has been asked for and hides something. -/
def Lucky (K : Key F) (i : Stage) (s : KzgScript F × Stage) (c : Draws F) : Prop :=
  (i.rank ≤ s.2.rank ∧ s.1.ShortUpTo K.n i) ∧ Hides K s.1 c i

/-- Without luck, and if the check is an identity, the verifier accepts no broken assignment. -/
theorem hides_of_accepts {G G2 GT : Type} [AddCommGroup G] [Module F G] [AddCommGroup G2] [Module F G2] [AddCommGroup GT]
    [Module F GT] {K : Key F} (hn : K.n ≠ 0) (hω : IsPrimitiveRoot K.ω K.n) (hap : K.Apart) {s : KzgScript F} (hs : s.Short K.n)
    (hb : K.Broken s.messages.advice) {E : Pairing F G G2 GT} {τ : F} {c : Draws F} (ha : s.Accepts K E τ c.tuple)
    (hr : s.residue K c.tuple = 0) : ∃ i, Hides K s c i := by
  classical
  obtain ⟨hx, hu, -⟩ := (accepts_residue hω hs E τ c.tuple).mp ha
  by_contra hno
  push Not at hno
  have h1 : (Shplonk.cross (s.claims K (five c)) (K.polynomials s.messages s.quotient (c .x)) s.first (c .yv).1
      (c .yv).2).eval (c .u) = 0 := by
    refine (Shplonk.cross_eval hu _ _ _ _).trans ?_
    have : (Shplonk.linear (s.claims K (five c)) (K.polynomials s.messages s.quotient (c .x)) s.first (c .yv).1 (c .yv).2
        (c .u)).eval (c .u) = 0 := by
      have := congrArg (fun f => f.eval (c .u)) hr
      simpa [residue, Shplonk.residue, Draws.tuple, five] using this
    exact mul_eq_zero_of_right _ this
  have h2 : Shplonk.cross (s.claims K (five c)) (K.polynomials s.messages s.quotient (c .x)) s.first (c .yv).1 (c .yv).2 = 0 := by
    by_contra h
    exact hno .u ⟨h, h1⟩
  have h3 : ¬ s.Wrong K (five c) := fun h => hno .yv ⟨h, _, h2⟩
  have hx0 : c .x ≠ 0 := fun h => hno .x (Or.inl h)
  have h4 : K.Check s.messages s.quotient (c .theta) (c .betaGamma).1 (c .betaGamma).2 (c .y) (c .x) := by
    refine Key.check_of_right (ev := s.values) hx fun q hq => ?_
    by_contra hne
    refine h3 ⟨q, hq, fun h => hne ?_⟩
    have e := Shplonk.evalOf_first hq fun q' hq' e1 e2 => Key.claims_first hn hω hap hx0 hq hq' e1 e2
    exact (h.trans e).symm
  have h5 : K.Combined s.messages (c .theta) (c .betaGamma).1 (c .betaGamma).2 (c .y) := by
    by_contra h
    exact hno .x (Or.inr ⟨h, h4⟩)
  have h6 : K.Vanish s.messages (c .theta) (c .betaGamma).1 (c .betaGamma).2 := by
    by_contra h
    exact hno .y ⟨h, h5⟩
  by_cases h7 : K.BrokenAt s.messages.advice (c .theta)
  · exact hno .betaGamma ⟨h7, s.messages.zPerm, s.messages.zLookup, h6⟩
  · exact hno .theta ⟨hb, h7⟩

theorem hides_answers {K : Key F} {s : KzgScript F} {i : Stage} {c c' : Draws F} (h : ∀ j : Stage, j.rank ≤ i.rank → c j = c' j)
    (hh : Hides K s c i) : Hides K s c' i := by
  cases i <;> simp only [Hides, five, Draws.tuple] at hh ⊢
  · rwa [← h .theta (by decide)]
  · rwa [← h .theta (by decide), ← h .betaGamma (by decide)]
  · rwa [← h .theta (by decide), ← h .betaGamma (by decide), ← h .y (by decide)]
  · rwa [← h .theta (by decide), ← h .betaGamma (by decide), ← h .y (by decide), ← h .x (by decide)]
  · rwa [← h .theta (by decide), ← h .betaGamma (by decide), ← h .y (by decide), ← h .x (by decide), ← h .yv (by decide)]
  · rwa [← h .theta (by decide), ← h .betaGamma (by decide), ← h .y (by decide), ← h .x (by decide), ← h .yv (by decide),
      ← h .u (by decide)]

/-- Scripts with the same beginning. -/
theorem hides_same {K : Key F} {s s' : KzgScript F} {i : Stage} {c : Draws F}
    (hp : ∀ p : Part, p.stage.rank ≤ i.rank → s.part p = s'.part p) (hv : Stage.yv.rank ≤ i.rank → s.values = s'.values)
    (hh : Hides K s c i) : Hides K s' c i := by
  have e1 : s.messages.advice = s'.messages.advice := funext fun c => hp (.advice c) (Nat.zero_le _)
  have e2 : Stage.betaGamma.rank ≤ i.rank → s.messages.permuted = s'.messages.permuted := fun h =>
    funext fun i => Prod.ext (hp (.input i) h) (hp (.table i) h)
  have e3 : Stage.y.rank ≤ i.rank → s.messages = s'.messages := fun h => by
    have a2 := e2 (le_trans (by decide) h)
    have a3 : s.messages.zPerm = s'.messages.zPerm := funext fun i => hp (.zPerm i) h
    have a4 : s.messages.zLookup = s'.messages.zLookup := funext fun i => hp (.zLookup i) h
    obtain ⟨⟨_, _, _, _⟩, _, _, _, _⟩ := s
    obtain ⟨⟨_, _, _, _⟩, _, _, _, _⟩ := s'
    simp only at e1 a2 a3 a4
    rw [e1, a2, a3, a4]
  have e4 : Stage.x.rank ≤ i.rank → s.quotient = s'.quotient := fun h => funext fun i => hp (.quotient i) h
  have e5 : Stage.u.rank ≤ i.rank → s.first = s'.first := fun h => hp .first h
  cases i <;> simp only [Hides, Wrong, claims] at hh ⊢
  · rwa [← e1]
  · rwa [← e1, ← e2 (by decide)]
  · rwa [← e3 (by decide)]
  · rwa [← e3 (by decide), ← e4 (by decide)]
  · rwa [← e3 (by decide), ← e4 (by decide), ← hv (by decide)]
  · rwa [← e3 (by decide), ← e4 (by decide), ← hv (by decide), ← e5 (by decide)]

/-! ### Two polynomials with one commitment -/

/-- Two scripts have different polynomials, in the same place, that agree at the secret. -/
def Clash (n : ℕ) (τ : F) (s s' : KzgScript F × Stage) : Prop :=
  ∃ p, (s.1.part p).degree < n ∧ (s'.1.part p).degree < n ∧ s.1.part p - s'.1.part p ≠ 0 ∧
    (s.1.part p - s'.1.part p).eval τ = 0

section
variable {G G2 GT : Type} [AddCommGroup G] [Module F G] [AddCommGroup G2] [Module F G2] [AddCommGroup GT] [Module F GT]

theorem commit_inj (E : Pairing F G G2 GT) {τ : F} {n : ℕ} {p p' : F[X]} (hp : p.degree < n) (hp' : p'.degree < n)
    (h : commit τ E.g n p = commit τ E.g n p') : (p - p').eval τ = 0 := by
  rw [commit_eq τ E.g hp, commit_eq τ E.g hp', ← sub_eq_zero, ← sub_smul] at h
  rw [eval_sub]
  refine E.nondegenerate _ ?_
  have := congrArg (fun a => E.e a E.g2) h
  simpa using this

theorem question_some {τ : F} {g : G} {n : ℕ} {i : Stage} {s : KzgScript F × Stage} (h : question τ g n i s ≠ none) :
    (i.rank ≤ s.2.rank ∧ s.1.ShortUpTo n i) ∧ question τ g n i s = some (s.1.written τ g n i) := by
  unfold question at h ⊢
  split_ifs at h ⊢ with hc
  · exact ⟨hc, rfl⟩
  · exact absurd rfl h

theorem question_ne {τ : F} {g : G} {n : ℕ} {i : Stage} {s : KzgScript F × Stage} (h : i.rank ≤ s.2.rank)
    (h' : s.1.ShortUpTo n i) : question τ g n i s = some (s.1.written τ g n i) := if_pos ⟨h, h'⟩

theorem luck (E : Pairing F G G2 GT) (τ : F) (K : Key F) :
    Oracle.Luck (question τ E.g K.n) Stage.rank (Clash K.n τ) (Lucky K) where
  earlier := by
    intro i j s s' hj hs hk
    obtain ⟨⟨h1, h2⟩, h3⟩ := question_some hs
    obtain ⟨⟨h1', h2'⟩, h3'⟩ := question_some (hk ▸ hs)
    rw [h3, h3', Option.some.injEq] at hk
    rw [question_ne (hj.trans h1) (h2.earlier hj), question_ne (hj.trans h1') (h2'.earlier hj)]
    refine ⟨by simp, congrArg some (Prod.ext (funext fun p => ?_) ?_)⟩
    · have := congrFun (congrArg Prod.fst hk) p
      simp only [written] at this ⊢
      by_cases hp : p.stage.rank ≤ j.rank
      · rw [if_pos (hp.trans hj), if_pos (hp.trans hj)] at this
        rw [if_pos hp, if_pos hp]
        exact this
      · rw [if_neg hp, if_neg hp]
    · have := congrArg Prod.snd hk
      simp only [written] at this ⊢
      by_cases hp : Stage.yv.rank ≤ j.rank
      · rw [if_pos (hp.trans hj), if_pos (hp.trans hj)] at this
        rw [if_pos hp, if_pos hp]
        exact this
      · rw [if_neg hp, if_neg hp]
  asked := by
    intro i s c h
    rw [question_ne h.1.1 h.1.2]
    simp
  answers := fun h hh => ⟨hh.1, hides_answers h hh.2⟩
  same := by
    intro i s s' c hs hk hc hh
    obtain ⟨⟨h1, h2⟩, h3⟩ := question_some hs
    obtain ⟨⟨h1', h2'⟩, h3'⟩ := question_some (hk ▸ hs)
    rw [h3, h3', Option.some.injEq] at hk
    refine ⟨⟨h1', h2'⟩, hides_same (fun p hp => ?_) (fun hp => ?_) hh.2⟩
    · have := congrFun (congrArg Prod.fst hk) p
      simp only [written, if_pos hp, Option.some.injEq] at this
      by_contra hne
      exact hc ⟨p, h2 p hp, h2' p hp, sub_ne_zero.mpr hne, commit_inj E (h2 p hp) (h2' p hp) this⟩
    · have := congrArg Prod.snd hk
      simpa only [written, if_pos hp, Option.some.injEq] using this

end

/-! ### Counting -/

variable [Fintype F]

/-- Challenges, of all, that can hide something. -/
def share (K : Key F) : Stage → ℕ
  | .theta => K.usable * K.width
  | .betaGamma => 3 * K.cells.card + 4 * K.usable
  | .y => K.numTerms
  | .x => K.degree * K.n + 1
  | .yv => 2 * K.queries.length
  | .u => K.queries.length + K.n

theorem count_zero : count (fun x : F => x = 0) ≤ 1 := by
  have := count_roots (P := (X : F[X])) X_ne_zero (d := 1) natDegree_X_le
  simpa using this

open Classical in
/-- If a claim is wrong, few `y` and `v` let the prover find a quotient. -/
theorem count_cross {L : Type} {qs : List (Query L F)} {p : L → F[X]} {q : Query L F} (hq : q ∈ qs)
    (hne : (p q.label).eval q.point ≠ Shplonk.evalOf qs q.label q.point) :
    count (fun c : F × F => ∃ h, Shplonk.cross qs p h c.1 c.2 = 0) ≤ 2 * qs.length * Fintype.card F := by
  have hs : q.point ∈ Shplonk.points qs q.label := (Shplonk.mem_points qs).mpr ⟨q, hq, rfl, rfl⟩
  have hl : q.label ∈ Shplonk.labels qs := (Shplonk.mem_labels qs).mpr ⟨q, hq, rfl⟩
  have hS : Shplonk.points qs q.label ∈ Shplonk.rotationSets qs := by
    rw [Shplonk.rotationSets, Shplonk.mem_firsts]
    exact List.mem_map_of_mem hl
  have hm : q.label ∈ Shplonk.members qs (Shplonk.points qs q.label) := by simp [Shplonk.members, hl]
  obtain ⟨i, hi⟩ := List.get_of_mem hm
  obtain ⟨j, hj⟩ := List.get_of_mem hS
  have hy := Shplonk.count_powers (fun i => (p ((Shplonk.members qs (Shplonk.points qs q.label)).get i)).eval q.point -
    Shplonk.evalOf qs ((Shplonk.members qs (Shplonk.points qs q.label)).get i) q.point) (i := i) (by
      rw [hi]
      exact sub_ne_zero.mpr hne)
  have hy := hy.trans (show _ ≤ qs.length by
    have := Shplonk.members_length (qs := qs) (Shplonk.points qs q.label)
    omega)
  refine (count_fibre hy (N := qs.length) fun y hy => ?_).trans (le_of_eq (by ring))
  have hv := Shplonk.count_powers (fun j => Shplonk.vanish (Shplonk.superSet qs \ (Shplonk.rotationSets qs).get j) q.point *
    (Shplonk.combined qs p y ((Shplonk.rotationSets qs).get j) -
      Shplonk.combinedLow qs y ((Shplonk.rotationSets qs).get j)).eval q.point) (i := j) (by
      rw [hj]
      refine mul_ne_zero (Shplonk.vanish_ne fun h => (Finset.mem_sdiff.mp h).2 hs) ?_
      rw [Shplonk.difference_eval p y hs]
      exact hy)
  have hv := hv.trans (show _ ≤ qs.length by
    have := Shplonk.sets_length (qs := qs)
    omega)
  refine (count_mono fun v hv => ?_).trans hv
  obtain ⟨h, h0⟩ := hv
  have := congrArg (fun f => f.eval q.point) h0
  simp only [Shplonk.cross, eval_sub, eval_finsetSum, eval_mul, eval_C, ← Shplonk.vanish_eq_nodal, eval_zero] at this
  rw [Shplonk.vanish_zero ((Shplonk.mem_superSet qs).mpr ⟨q, hq, rfl⟩), zero_mul, sub_zero] at this
  simpa only [eval_sub] using this

theorem count_hides {K : Key F} (hK : K.Wf) (hω : IsPrimitiveRoot K.ω K.n) (i : Stage) (s : KzgScript F × Stage) (c : Draws F) :
    count (fun v => Lucky K i s (Function.update c i v)) * Fintype.card F ≤ share K i * Fintype.card (Draw F i) := by
  classical
  by_cases hs : i.rank ≤ s.2.rank ∧ s.1.ShortUpTo K.n i
  swap
  · rw [count_false fun v hv => hs hv.1, zero_mul]
    exact Nat.zero_le _
  obtain ⟨-, hs⟩ := hs
  refine le_trans (Nat.mul_le_mul_right _ (count_mono (q := fun v => Hides K s.1 (Function.update c i v) i)
    fun v hv => hv.2)) ?_
  cases i with
  | theta =>
    refine Nat.mul_le_mul_right _ ?_
    by_cases hb : K.Broken s.1.messages.advice
    · refine (count_mono fun v hv => ?_).trans (Key.count_theta hb)
      simpa using hv.2
    · rw [count_false fun v hv => hb hv.1]
      exact Nat.zero_le _
  | betaGamma =>
    have : Fintype.card (Draw F .betaGamma) = Fintype.card F * Fintype.card F := Fintype.card_prod F F
    rw [this, ← mul_assoc]
    refine Nat.mul_le_mul_right _ ?_
    by_cases hb : K.BrokenAt s.1.messages.advice (c .theta)
    · refine (count_mono fun v hv => ?_).trans (Key.count_betaGamma hK s.1.messages.advice s.1.messages.permuted hb)
      simpa [Hides] using hv.2
    · rw [count_false fun v hv => hb (by simpa [Hides] using hv.1)]
      exact Nat.zero_le _
  | y =>
    refine Nat.mul_le_mul_right _ ?_
    by_cases hb : K.Vanish s.1.messages (c .theta) (c .betaGamma).1 (c .betaGamma).2
    · rw [count_false fun v hv => hv.1 (by simpa [Hides] using hb)]
      exact Nat.zero_le _
    · refine (count_mono fun v hv => ?_).trans (Key.count_y hb)
      simpa [Hides] using hv.2
  | x =>
    refine Nat.mul_le_mul_right _ ?_
    by_cases hb : K.Combined s.1.messages (c .theta) (c .betaGamma).1 (c .betaGamma).2 (c .y)
    · refine (count_mono fun v hv => ?_).trans (count_zero.trans (Nat.le_add_left _ _))
      rcases hv with hv | hv
      · simpa using hv
      · exact absurd (by simpa using hb) hv.1
    · refine (count_mono (q := fun v => K.Check s.1.messages s.1.quotient (c .theta) (c .betaGamma).1 (c .betaGamma).2 (c .y) v ∨ v = 0)
        fun v hv => ?_).trans ((count_or _ _).trans (Nat.add_le_add (Key.count_x hK (short_messages (hs.earlier (by decide)))
          (quotient_short hs) hb) count_zero))
      rcases hv with hv | hv
      · exact Or.inr (by simpa using hv)
      · exact Or.inl (by simpa using hv.2)
  | yv =>
    have : Fintype.card (Draw F .yv) = Fintype.card F * Fintype.card F := Fintype.card_prod F F
    rw [this, ← mul_assoc]
    refine Nat.mul_le_mul_right _ ?_
    have e5 : ∀ v, five (Function.update c .yv v) = five c := fun v => by simp [five, Draws.tuple]
    by_cases hb : s.1.Wrong K (five c)
    · obtain ⟨q, hq, hne⟩ := hb
      have := count_cross hq hne
      rw [show (s.1.claims K (five c)).length = K.queries.length from Key.claims_length _ _ _ _ _ _ _] at this
      refine (count_mono fun v hv => ?_).trans this
      simp only [Hides, e5] at hv
      have := hv.2
      simp only [Function.update_self, ne_eq, reduceCtorEq, not_false_eq_true, Function.update_of_ne] at this
      exact this
    · rw [count_false fun v hv => hb (by simpa only [Hides, e5] using hv.1)]
      exact Nat.zero_le _
  | u =>
    refine Nat.mul_le_mul_right _ ?_
    have e5 : ∀ v, five (Function.update c .u v) = five c := fun v => by simp [five, Draws.tuple]
    by_cases hb : Shplonk.cross (s.1.claims K (five c)) (K.polynomials s.1.messages s.1.quotient (c .x)) s.1.first (c .yv).1
        (c .yv).2 = 0
    · rw [count_false fun v hv => hv.1 (by simpa [e5] using hb)]
      exact Nat.zero_le _
    · refine (count_mono fun v hv => ?_).trans (count_roots hb (d := K.queries.length + K.n) ?_)
      · simp only [Hides, e5] at hv
        simpa using hv.2
      · have h1 := (natDegree_lt_iff_degree_lt hb).mpr (Shplonk.cross_degree (qs := s.1.claims K (five c))
          (polynomials_short hω (hs.earlier (by decide)) _) (hs .first (by decide)) _ _)
        have h2 := Shplonk.superSet_card (qs := s.1.claims K (five c))
        rw [show (s.1.claims K (five c)).length = K.queries.length from Key.claims_length _ _ _ _ _ _ _] at h2
        omega

theorem sum_share (K : Key F) : ∑ i, share K i = K.slack + 3 * K.queries.length + K.n + 1 := by
  have hcells : K.cells.card = K.cols.length * K.usable := by
    rw [Key.cells, Finset.card_product, Finset.card_range, Finset.card_univ, Fintype.card_fin, mul_comm]
  have : (Finset.univ : Finset Stage) = {.theta, .betaGamma, .y, .x, .yv, .u} := rfl
  rw [this]
  simp only [Finset.sum_insert (show Stage.theta ∉ ({.betaGamma, .y, .x, .yv, .u} : Finset Stage) by decide),
    Finset.sum_insert (show Stage.betaGamma ∉ ({.y, .x, .yv, .u} : Finset Stage) by decide),
    Finset.sum_insert (show Stage.y ∉ ({.x, .yv, .u} : Finset Stage) by decide),
    Finset.sum_insert (show Stage.x ∉ ({.yv, .u} : Finset Stage) by decide),
    Finset.sum_insert (show Stage.yv ∉ ({.u} : Finset Stage) by decide), Finset.sum_singleton, share, Key.slack, Key.rest,
    hcells]
  ring

end KzgScript

/-! ### The prover of the tests -/

/-- The challenges as functions of the stage and as a tuple. -/
def drawsEquiv (F : Type) : Draws F ≃ (F × F × F × F × F) × F × F × F where
  toFun := Draws.tuple
  invFun c := fun
    | .theta => c.1.1
    | .betaGamma => (c.1.2.1, c.1.2.2.1)
    | .y => c.1.2.2.2.1
    | .x => c.1.2.2.2.2
    | .yv => (c.2.1, c.2.2.1)
    | .u => c.2.2.2
  left_inv c := by
    funext i
    cases i <;> rfl
  right_inv c := rfl

theorem card_draws [Fintype F] : Fintype.card (Draws F) = Fintype.card F ^ 8 := by
  rw [Fintype.card_congr (drawsEquiv F)]
  simp only [Fintype.card_prod]
  ring

namespace KzgProver

theorem script_short {P : KzgProver F} {n : ℕ} (hP : P.Short n) (c : (F × F × F × F × F) × F × F × F) :
    (P.script c).Short n := by
  refine ⟨fun p => ?_, hP.second _ _ _ _⟩
  cases p with
  | advice c => exact hP.prover.advice c
  | input i => exact hP.prover.input _ i
  | table i => exact hP.prover.table _ i
  | zPerm i => exact hP.prover.zPerm _ _ _ i
  | zLookup i => exact hP.prover.zLookup _ _ _ i
  | quotient i => exact hP.prover.quotient _ _ _ _ i
  | first => exact hP.first _ _ _

/-- What is written before a challenge depends on the challenges before. -/
theorem written_script {G : Type} [AddCommGroup G] [Module F G] (P : KzgProver F) (τ : F) (g : G) (n : ℕ) {i : Stage}
    {c c' : Draws F} (h : ∀ j : Stage, j.rank < i.rank → c j = c' j) :
    (P.script c.tuple).written τ g n i = (P.script c'.tuple).written τ g n i := by
  refine Prod.ext (funext fun p => ?_) ?_
  · simp only [KzgScript.written]
    by_cases hp : p.stage.rank ≤ i.rank
    · rw [if_pos hp, if_pos hp]
      have h' : ∀ j : Stage, j.rank < p.stage.rank → c j = c' j := fun j hj => h j (lt_of_lt_of_le hj hp)
      congr 2
      cases p with
      | advice _ => rfl
      | input _ =>
        have h0 := h' .theta (by change (0 : ℕ) < 1; omega)
        simp only [KzgScript.part, script, Prover.messages, Draws.tuple, h0]
      | table _ =>
        have h0 := h' .theta (by change (0 : ℕ) < 1; omega)
        simp only [KzgScript.part, script, Prover.messages, Draws.tuple, h0]
      | zPerm _ =>
        have h0 := h' .theta (by change (0 : ℕ) < 2; omega)
        have h1 := h' .betaGamma (by change (1 : ℕ) < 2; omega)
        simp only [KzgScript.part, script, Prover.messages, Draws.tuple, h0, h1]
      | zLookup _ =>
        have h0 := h' .theta (by change (0 : ℕ) < 2; omega)
        have h1 := h' .betaGamma (by change (1 : ℕ) < 2; omega)
        simp only [KzgScript.part, script, Prover.messages, Draws.tuple, h0, h1]
      | quotient _ =>
        have h0 := h' .theta (by change (0 : ℕ) < 3; omega)
        have h1 := h' .betaGamma (by change (1 : ℕ) < 3; omega)
        have h2 := h' .y (by change (2 : ℕ) < 3; omega)
        simp only [KzgScript.part, script, Draws.tuple, h0, h1, h2]
      | first =>
        have h0 := h' .theta (by decide)
        have h1 := h' .betaGamma (by decide)
        have h2 := h' .y (by decide)
        have h3 := h' .x (by decide)
        have h4 := h' .yv (by decide)
        simp only [KzgScript.part, script, Draws.tuple, h0, h1, h2, h3, h4]
    · rw [if_neg hp, if_neg hp]
  · simp only [KzgScript.written]
    by_cases hp : Stage.yv.rank ≤ i.rank
    · rw [if_pos hp, if_pos hp]
      have h' : ∀ j : Stage, j.rank < Stage.yv.rank → c j = c' j := fun j hj => h j (lt_of_lt_of_le hj hp)
      have h0 := h' .theta (by decide)
      have h1 := h' .betaGamma (by decide)
      have h2 := h' .y (by decide)
      have h3 := h' .x (by decide)
      simp only [script, Draws.tuple, h0, h1, h2, h3]
    · rw [if_neg hp, if_neg hp]

theorem ask_rank (P : KzgProver F) (h : Oracle.Log (KzgScript F × Stage) (Draw F)) : (P.ask h).2.rank = min h.length 5 := by
  unfold ask
  match hl : h.length with
  | 0 | 1 | 2 | 3 | 4 => rfl
  | k + 5 =>
    have : min (k + 5) 5 = 5 := by omega
    rw [this]
    rfl

theorem rank_le (i : Stage) : i.rank ≤ 5 := by cases i <;> decide

theorem run_length {I S A : Type} {B : I → Type} (κ : I → S → Option A) (P : Oracle.Log S B → S) (t : ℕ → (i : I) → B i) :
    ∀ j, (Oracle.run κ P t j).length = j
  | 0 => rfl
  | j + 1 => by rw [Oracle.run, List.length_cons, run_length κ P t j]

/-- The prover meets one random answer after the other. -/
theorem ask_run {G : Type} [AddCommGroup G] [Module F G] {P : KzgProver F} {n : ℕ} (hP : P.Short n) (τ : F) (g : G)
    (t : ℕ → Draws F) : ∀ k,
      (∀ e ∈ Oracle.run (KzgScript.question τ g n) P.ask t k, e.1.2.rank < k) ∧
      (∀ e ∈ (Oracle.run (KzgScript.question τ g n) P.ask t k).head?,
        e.1.2.rank = min (k - 1) 5 ∧ (∀ j : Stage, j.rank < k → e.2 j = t j.rank j) ∧
        ∃ c : Draws F, e.1.1 = P.script c.tuple ∧ ∀ j : Stage, j.rank < k - 1 → c j = t j.rank j)
  | 0 => by simp [Oracle.run]
  | k + 1 => by
    obtain ⟨ih1, ih2⟩ := ask_run hP τ g t k
    have hag := Oracle.run_agree (KzgScript.question τ g n) P.ask t k
    have hlen := run_length (KzgScript.question τ g n) P.ask t k
    rw [Oracle.run]
    generalize hh : Oracle.run (KzgScript.question τ g n) P.ask t k = h at ih1 ih2 hag hlen
    have hrank := ask_rank P h
    rw [hlen] at hrank
    have hscript : ∃ c : Draws F, (P.ask h).1 = P.script c.tuple ∧ ∀ j : Stage, j.rank < k → c j = t j.rank j := by
      cases h with
      | nil =>
        refine ⟨(drawsEquiv F).symm 0, rfl, fun j hj => ?_⟩
        simp only [List.length_nil] at hlen
        omega
      | cons e h => exact ⟨e.2, rfl, (ih2 e rfl).2.1⟩
    obtain ⟨c, hc, hcj⟩ := hscript
    have hshort : (P.ask h).1.Short n := by rw [hc]; exact script_short hP _
    refine ⟨fun e he => ?_, fun e he => ?_⟩
    · rcases List.mem_cons.mp he with rfl | he
      · simp only [hrank]
        omega
      · have := ih1 e he
        omega
    · obtain rfl := Option.mem_some_iff.mp he
      refine ⟨by simpa using hrank, fun j hj => ?_, c, hc, fun j hj => hcj j (by omega)⟩
      have hasked : KzgScript.question τ g n j (P.ask h) = some ((P.ask h).1.written τ g n j) :=
        KzgScript.question_ne (by rw [hrank]; have := rank_le j; omega) (hshort.upTo j)
      by_cases hjk : j.rank < k
      · cases h with
        | nil =>
          simp only [List.length_nil] at hlen
          omega
        | cons e h =>
          obtain ⟨e1, e2, c', e3, e4⟩ := ih2 e rfl
          rw [← e2 j hjk]
          refine Oracle.reply_agree hag _ List.mem_cons_self (by rw [hasked]; simp) ?_
          rw [hasked, KzgScript.question_ne (by rw [e1]; have := rank_le j; omega) (by
            rw [e3]; exact (script_short hP _).upTo j), e3, hc]
          exact congrArg some (written_script P τ g n fun i hi => by rw [e4 i (by omega), hcj i (by omega)])
      · have hjk : j.rank = k := by omega
        rcases Oracle.reply_cases (κ := KzgScript.question τ g n) (h := h) (P.ask h) (t k) j with ⟨e, he, hs, hk, -⟩ | ⟨-, e1⟩
        · have := (KzgScript.question_some (by rw [hk]; exact hs)).1.1
          have := ih1 e he
          omega
        · rw [hjk]
          exact e1

/-- The challenges the prover meets. -/
def met (t : ℕ → Draws F) : Draws F := fun i => t i.rank i

theorem ask_seven {G : Type} [AddCommGroup G] [Module F G] {P : KzgProver F} {n : ℕ} (hP : P.Short n) (τ : F) (g : G)
    (t : ℕ → Draws F) : ∃ h, Oracle.run (KzgScript.question τ g n) P.ask t 7 = ((P.script (met t).tuple, .u), met t) :: h := by
  have h := (ask_run hP τ g t 7).2
  rw [Oracle.run] at h ⊢
  refine ⟨_, congrArg (· :: _) ?_⟩
  obtain ⟨h1, h2, c, h3, h4⟩ := h _ rfl
  refine Prod.ext (Prod.ext ?_ ?_) ?_
  · rw [h3]
    congr 2
    funext j
    exact h4 j (by have := rank_le j; omega)
  · generalize (P.ask (Oracle.run (KzgScript.question τ g n) P.ask t 6)) = s at h1
    revert h1
    cases s.2 <;> simp [Stage.rank]
  · funext j
    exact h2 j (by have := rank_le j; omega)

end KzgProver

variable [Fintype F] {G G2 GT : Type} [AddCommGroup G] [Module F G] [AddCommGroup G2] [Module F G2] [AddCommGroup GT]
  [Module F GT]

/-- The secret of the parameters is a root of a polynomial of degree at most `n`, not zero, found in what a player has done:
the difference of two polynomials, or what a verifier checks to be zero at the secret. -/
def Key.Breaks (K : Key F) (τ : F) (h : Oracle.Log (KzgScript F × Stage) (Draw F)) : Prop :=
  ∃ R : F[X], R ≠ 0 ∧ R.natDegree ≤ K.n ∧ R.eval τ = 0 ∧
    ((∃ e ∈ h, ∃ e' ∈ h, ∃ p, R = e.1.1.part p - e'.1.1.part p) ∨ ∃ e ∈ h, R = e.1.1.residue K (Draws.tuple e.2))

/-- Non-interactive proofs show `good`. A player that knows the parameters, makes `Q` moves with commitments to polynomials
it knows and finds a proof that is accepted and has committed to an assignment without `good` has found the secret as
a root, but for few oracles. -/
def Key.ProvesFs (K : Key F) (E : Pairing F G G2 GT) (good : Grid F → Prop) : Prop :=
  ∀ (τ : F) (A : Oracle.Log (KzgScript F × Stage) (Draw F) → KzgScript F × Stage) (Q : ℕ),
    Nat.card {t : Fin Q → Draws F // (∃ e ∈ Oracle.run (KzgScript.question τ E.g K.n) A (Oracle.tape t) Q,
        e.1.1.Short K.n ∧ e.1.2 = .u ∧ e.1.1.Accepts K E τ (Draws.tuple e.2) ∧ ¬ good (K.grid e.1.1.messages.advice)) ∧
        ¬ K.Breaks τ (Oracle.run (KzgScript.question τ E.g K.n) A (Oracle.tape t) Q)} * Fintype.card F ≤
      Q * (K.slack + 3 * K.queries.length + K.n + 1) * Fintype.card F ^ (8 * Q)

theorem Key.ProvesFs.on {K : Key F} {E : Pairing F G G2 GT} {A B : Grid F → Prop} (h : K.ProvesFs E A)
    (hAB : ∀ adv, A (K.grid adv) → B (K.grid adv)) : K.ProvesFs E B := by
  intro τ A Q
  refine le_trans (Nat.mul_le_mul_right _ ?_) (h τ A Q)
  rw [nat_card_eq_count, nat_card_eq_count]
  exact count_mono fun t ⟨⟨e, he, h1, h2, h3, h4⟩, hb⟩ => ⟨⟨e, he, h1, h2, h3, fun hg => h4 (hAB _ hg)⟩, hb⟩

theorem card_draw_tapes (Q : ℕ) : Fintype.card (Fin Q → Draws F) = Fintype.card F ^ (8 * Q) := by
  rw [Fintype.card_fun, Fintype.card_fin, card_draws, pow_mul]

/-- Assignments that are not good are broken. -/
theorem provesFs_of_broken {K : Key F} (hK : K.Wf) (hω : IsPrimitiveRoot K.ω K.n) (hn : K.n ≠ 0) (hap : K.Apart)
    (E : Pairing F G G2 GT) {good : Grid F → Prop}
    (hgood : ∀ adv : ℕ → F[X], (∀ c, (adv c).degree < K.n) → ¬ K.Broken adv → good (K.grid adv)) : K.ProvesFs E good := by
  intro τ A Q
  have h := Oracle.count_luck (KzgScript.luck E τ K) (KzgScript.count_hides hK hω) A Q
  rw [KzgScript.sum_share, card_draw_tapes] at h
  rw [nat_card_eq_count]
  refine le_trans (Nat.mul_le_mul_right _ (count_mono ?_)) h
  rintro t ⟨⟨e, he, hs, hu, ha, hb⟩, hno⟩
  have hclash : ∀ e ∈ Oracle.run (KzgScript.question τ E.g K.n) A (Oracle.tape t) Q,
      ∀ e' ∈ Oracle.run (KzgScript.question τ E.g K.n) A (Oracle.tape t) Q, ¬ KzgScript.Clash K.n τ e.1 e'.1 := by
    rintro e he e' he' ⟨p, h1, h2, h3, h4⟩
    refine hno ⟨_, h3, ?_, h4, Or.inl ⟨e, he, e', he', p, rfl⟩⟩
    exact ((natDegree_lt_iff_degree_lt h3).mpr (Shplonk.degree_sub_lt' h1 h2)).le
  refine ⟨hclash, e, he, ?_⟩
  have hbr : K.Broken e.1.1.messages.advice := by
    by_contra hnb
    exact hb (hgood _ (fun c => hs.part (.advice c)) hnb)
  have hres : e.1.1.residue K (Draws.tuple e.2) = 0 := by
    by_contra hne
    refine hno ⟨_, hne, ?_, ((KzgScript.accepts_residue hω hs E τ _).mp ha).2.2, Or.inr ⟨e, he, rfl⟩⟩
    exact Shplonk.residue_degree (Nat.pos_of_ne_zero hn) (KzgScript.polynomials_short hω (hs.upTo _) _) (hs.part .first)
      hs.second _ _ _
  obtain ⟨i, hi⟩ := KzgScript.hides_of_accepts hn hω hap hs hbr ha hres
  exact ⟨i, ⟨by rw [hu]; exact KzgProver.rank_le i, hs.upTo i⟩, hi⟩

end Halo2

namespace Props
open Halo2 Polynomial

variable {F : Type} [Field F] [Fintype F] {G G2 GT : Type} [AddCommGroup G] [Module F G] [AddCommGroup G2] [Module F G2]
  [AddCommGroup GT] [Module F GT]

/-- The oracle of the game: the same beginnings, written as commitments and values, have the same challenges, and a beginning
not seen before gets the next random answer. -/
theorem C103_oracle (K : Key F) (E : Pairing F G G2 GT) (τ : F)
    (A : Oracle.Log (KzgScript F × Stage) (Draw F) → KzgScript F × Stage) (t : ℕ → Draws F) (Q : ℕ) (i : Stage) :
    (∀ e ∈ Oracle.run (KzgScript.question τ E.g K.n) A t Q, ∀ e' ∈ Oracle.run (KzgScript.question τ E.g K.n) A t Q,
      e.1.1.Short K.n → e'.1.1.Short K.n → i.rank ≤ e.1.2.rank → i.rank ≤ e'.1.2.rank →
      (∀ p : Part, p.stage.rank ≤ i.rank → commit τ E.g K.n (e.1.1.part p) = commit τ E.g K.n (e'.1.1.part p)) →
      (4 ≤ i.rank → e.1.1.values = e'.1.1.values) → e.2 i = e'.2 i) ∧
    ∃ e, Oracle.run (KzgScript.question τ E.g K.n) A t (Q + 1) = e :: Oracle.run (KzgScript.question τ E.g K.n) A t Q ∧
      e.1 = A (Oracle.run (KzgScript.question τ E.g K.n) A t Q) ∧
      ((∀ e' ∈ Oracle.run (KzgScript.question τ E.g K.n) A t Q, i.rank ≤ e'.1.2.rank →
        (∃ p : Part, p.stage.rank ≤ i.rank ∧ commit τ E.g K.n (e.1.1.part p) ≠ commit τ E.g K.n (e'.1.1.part p)) ∨
          4 ≤ i.rank ∧ e.1.1.values ≠ e'.1.1.values) → e.2 i = t Q i) := by
  constructor
  · intro e he e' he' hs hs' hi hi' hp hv
    refine Oracle.run_agree _ A t Q e he e' he' i ?_ ?_
    · rw [KzgScript.question_ne hi (hs.upTo i)]
      simp
    · rw [KzgScript.question_ne hi (hs.upTo i), KzgScript.question_ne hi' (hs'.upTo i)]
      refine congrArg some (Prod.ext (funext fun p => ?_) ?_)
      · simp only [KzgScript.written]
        split_ifs with h
        · rw [hp p h]
        · rfl
      · simp only [KzgScript.written]
        split_ifs with h
        · rw [hv h]
        · rfl
  · refine ⟨_, rfl, rfl, fun h => ?_⟩
    rcases Oracle.reply_cases (κ := KzgScript.question τ E.g K.n)
      (h := Oracle.run (KzgScript.question τ E.g K.n) A t Q) (A (Oracle.run (KzgScript.question τ E.g K.n) A t Q))
      (t Q) i with ⟨e', he', hs, hk, -⟩ | ⟨-, e1⟩
    · obtain ⟨⟨g1, -⟩, g2⟩ := KzgScript.question_some (by rw [hk]; exact hs)
      obtain ⟨-, g3⟩ := KzgScript.question_some hs
      rw [g2, g3, Option.some.injEq] at hk
      rcases h e' he' g1 with ⟨p, hp, hne⟩ | ⟨hi, hne⟩
      · have := congrFun (congrArg Prod.fst hk) p
        simp only [KzgScript.written, if_pos hp, Option.some.injEq] at this
        exact absurd this.symm hne
      · have := congrArg Prod.snd hk
        simp only [KzgScript.written] at this
        have hi : Stage.yv.rank ≤ i.rank := hi
        rw [if_pos hi, if_pos hi, Option.some.injEq] at this
        exact absurd this.symm hne
    · exact e1

/-- **C103.** What proofs with ideal commitments show is shown by the non-interactive proofs of the tests: commitments and
openings, challenges from a random oracle that is asked with commitments. -/
theorem C103_extract {cs : CS F} {ws : List (Wide F)} {ops : List (Op F)} {n : ℕ} {ω δ : F} {K : Key F}
    (hK : keygenWith cs ws ops n ω δ = .ok K) (hω : IsPrimitiveRoot ω n) (hδ : DistinctNames cs n ω δ) (hap : K.Apart)
    (hsmall : K.slack + K.loss < Fintype.card F) {good : Grid F → Prop} (h : K.Proves good) (E : Pairing F G G2 GT) :
    K.ProvesFs E good := by
  obtain ⟨hn, hKω⟩ := keygen_n hK
  have hwf := keygen_wf hK hω
  refine provesFs_of_broken hwf (by rw [hn, hKω]; exact hω) (by have := hwf.lt; omega) hap E fun adv hadv hb => ?_
  obtain ⟨h1, h2, h3⟩ := holds_of_not_broken hK hω hδ hb
  obtain ⟨P, hP, ha, hc⟩ := C89_complete hK hω (hn ▸ hadv) h1 h2 h3
  rcases h.1 P (hn ▸ hP) with hg | hg
  · rw [← ha]
    exact hg
  · exfalso
    have hq : 0 < Fintype.card F ^ 4 := Nat.pow_pos Fintype.card_pos
    have : Fintype.card F ^ 5 ≤ (K.slack + K.loss) * Fintype.card F ^ 4 := by
      calc _ ≤ K.slack * Fintype.card F ^ 4 + K.loss * Fintype.card F ^ 4 := hc.trans (Nat.add_le_add_right hg _)
        _ = _ := by ring
    rw [pow_succ', Nat.mul_le_mul_right_iff hq] at this
    omega

/-- **C103.** A prover that convinces a verifier finds its challenges with seven moves, one for each challenge and one to
finish, and is then accepted for the same share of all oracles. -/
theorem C103_complete {K : Key F} {P : KzgProver F} (hP : P.Short K.n) (E : Pairing F G G2 GT) (τ : F) :
    Nat.card {t : Fin 7 → Draws F // ∃ e ∈ (Oracle.run (KzgScript.question τ E.g K.n) P.ask (Oracle.tape t) 7).head?,
      e.1.1.Short K.n ∧ e.1.2 = .u ∧ e.1.1.messages.advice = P.advice ∧ e.1.1.Accepts K E τ (Draws.tuple e.2)} *
        Fintype.card F ^ 8 = Nat.card {c // P.Accepts K E τ c} * Fintype.card F ^ 56 := by
  have h : ∀ t : Fin 7 → Draws F, (∃ e ∈ (Oracle.run (KzgScript.question τ E.g K.n) P.ask (Oracle.tape t) 7).head?,
      e.1.1.Short K.n ∧ e.1.2 = .u ∧ e.1.1.messages.advice = P.advice ∧ e.1.1.Accepts K E τ (Draws.tuple e.2)) ↔
        P.Accepts K E τ (Draws.tuple fun i => t ⟨i.rank, by have := KzgProver.rank_le i; omega⟩ i) := by
    intro t
    have em : KzgProver.met (Oracle.tape t) = fun i : Stage => t ⟨i.rank, by have := KzgProver.rank_le i; omega⟩ i := by
      funext i
      have := KzgProver.rank_le i
      simp only [KzgProver.met, Oracle.tape]
      rw [dif_pos (by omega)]
    rw [← em]
    obtain ⟨l, hl⟩ := KzgProver.ask_seven hP τ E.g (Oracle.tape t)
    rw [hl]
    simp only [List.head?_cons, Option.mem_some_iff, exists_eq_left']
    exact ⟨fun h => h.2.2.2, fun h => ⟨KzgProver.script_short hP _, trivial, rfl, h⟩⟩
  rw [nat_card_eq_count, nat_card_eq_count]
  simp only [h]
  have h2 := Oracle.count_diagonal (B := Draw F) (fun i : Stage => (⟨i.rank, by have := KzgProver.rank_le i; omega⟩ : Fin 7))
    fun c => P.Accepts K E τ (Draws.tuple c)
  rw [card_draws, card_draw_tapes] at h2
  rw [h2]
  exact congrArg (· * Fintype.card F ^ 56) (count_equiv (drawsEquiv F) (q := fun c => P.Accepts K E τ c) fun c => Iff.rfl)

theorem honest_asks {K : Key F} {P : Prover F} {l : ℕ} (hP : P.Short K.n)
    (hc : Fintype.card F ^ 5 ≤ Nat.card {c // P.Convinces K c} + l * Fintype.card F ^ 4) (hn : K.n ≠ 0)
    (hω : IsPrimitiveRoot K.ω K.n) (E : Pairing F G G2 GT) : ∃ P' : KzgProver F, P'.Short K.n ∧ P'.advice = P.advice ∧ ∀ τ,
      Fintype.card F ^ 56 ≤ Nat.card {t : Fin 7 → Draws F //
        ∃ e ∈ (Oracle.run (KzgScript.question τ E.g K.n) P'.ask (Oracle.tape t) 7).head?, e.1.1.Short K.n ∧ e.1.2 = .u ∧
          e.1.1.messages.advice = P.advice ∧ e.1.1.Accepts K E τ (Draws.tuple e.2)} +
        (l + K.queries.length) * Fintype.card F ^ 55 := by
  obtain ⟨h1, h2⟩ := honest_accepted hP hc hn hω E
  refine ⟨_, h1, rfl, fun τ => Nat.le_of_mul_le_mul_right ?_ (Nat.pow_pos (n := 8) (Fintype.card_pos (α := F)))⟩
  refine le_of_eq_of_le (by ring : _ = Fintype.card F ^ 8 * Fintype.card F ^ 56)
    ((Nat.mul_le_mul_right _ (h2 τ)).trans (le_of_eq ?_))
  have h3 := C103_complete h1 E τ
  rw [add_mul, ← h3]
  change _ = (Nat.card _ + _) * _
  rw [add_mul _ _ (Fintype.card F ^ 8)]
  refine congrArg₂ (· + ·) rfl ?_
  ring

/-- **C103.** What honest provers show with ideal commitments they show non-interactively, whatever the secret. -/
theorem C103_shows {K : Key F} {good : Grid F → Prop} (h : K.Shows good) (hn : K.n ≠ 0) (hω : IsPrimitiveRoot K.ω K.n)
    (E : Pairing F G G2 GT) : ∃ P : KzgProver F, P.Short K.n ∧ good (K.grid P.advice) ∧ ∀ τ,
      Fintype.card F ^ 56 ≤ Nat.card {t : Fin 7 → Draws F //
        ∃ e ∈ (Oracle.run (KzgScript.question τ E.g K.n) P.ask (Oracle.tape t) 7).head?, e.1.1.Short K.n ∧ e.1.2 = .u ∧
          e.1.1.messages.advice = P.advice ∧ e.1.1.Accepts K E τ (Draws.tuple e.2)} +
        (K.loss + K.queries.length) * Fintype.card F ^ 55 := by
  obtain ⟨P, hP, hg, hc⟩ := h
  obtain ⟨P', h1, h2, h3⟩ := honest_asks hP hc hn hω E
  refine ⟨P', h1, by rw [h2]; exact hg, fun τ => ?_⟩
  rw [h2]
  exact h3 τ

theorem count_list_roots (n : ℕ) : ∀ Rs : List F[X],
    count (fun τ : F => ∃ R ∈ Rs, R ≠ 0 ∧ R.natDegree ≤ n ∧ R.eval τ = 0) ≤ Rs.length * n
  | [] => by rw [count_false fun τ h => by simp at h]; exact Nat.zero_le _
  | R :: Rs => by
    have h1 : count (fun τ : F => R ≠ 0 ∧ R.natDegree ≤ n ∧ R.eval τ = 0) ≤ n := by
      by_cases hR : R = 0
      · rw [count_false fun τ h => h.1 hR]
        exact Nat.zero_le _
      · by_cases hd : R.natDegree ≤ n
        · exact (count_mono fun τ h => h.2.2).trans (count_roots hR hd)
        · rw [count_false fun τ h => hd h.2.1]
          exact Nat.zero_le _
    refine (count_mono (q := fun τ : F => (R ≠ 0 ∧ R.natDegree ≤ n ∧ R.eval τ = 0) ∨
      ∃ R ∈ Rs, R ≠ 0 ∧ R.natDegree ≤ n ∧ R.eval τ = 0) ?_).trans ((count_or _ _).trans ?_)
    · rintro τ ⟨R', hR', h⟩
      rcases List.mem_cons.mp hR' with rfl | hR'
      · exact Or.inl h
      · exact Or.inr ⟨R', hR', h⟩
    · have := count_list_roots n Rs
      rw [List.length_cons, Nat.add_mul]
      omega

/-- **C103.** To find the secret as a root is to find it in a short list: what has been done so far, with finitely many
commitments, breaks few secrets. -/
theorem C103_breaks (K : Key F) (h : Oracle.Log (KzgScript F × Stage) (Draw F)) (ps : List Part)
    (hps : ∀ e ∈ h, ∀ p ∉ ps, e.1.1.part p = 0) :
    Nat.card {τ : F // K.Breaks τ h} ≤ (ps.length * h.length ^ 2 + h.length) * K.n := by
  rw [nat_card_eq_count]
  refine le_trans (count_mono ?_) (le_of_le_of_eq (count_list_roots K.n
    ((h.flatMap fun e => h.flatMap fun e' => ps.map fun p => e.1.1.part p - e'.1.1.part p) ++
      h.map fun e => e.1.1.residue K (Draws.tuple e.2))) ?_)
  · rintro τ ⟨R, h0, hd, hr, hR⟩
    refine ⟨R, List.mem_append.mpr ?_, h0, hd, hr⟩
    rcases hR with ⟨e, he, e', he', p, hR⟩ | ⟨e, he, hR⟩
    · refine Or.inl (List.mem_flatMap.mpr ⟨e, he, List.mem_flatMap.mpr ⟨e', he', List.mem_map.mpr ⟨p, ?_, hR.symm⟩⟩⟩)
      by_contra hp
      rw [hR, hps e he p hp, hps e' he' p hp, sub_zero] at h0
      exact h0 rfl
    · exact Or.inr (List.mem_map.mpr ⟨e, he, hR.symm⟩)
  · simp only [List.length_append, List.length_flatMap, List.length_map, List.map_const', List.sum_replicate, smul_eq_mul]
    ring

-- a player that has made one move, with one commitment that is not to zero, breaks at most two secrets per row
example (K : Key F) (c : Draws F) : Nat.card {τ : F // K.Breaks τ
    [((⟨⟨fun _ => 0, fun _ => 0, fun _ => 0, fun _ => 0⟩, fun _ => 0, fun _ _ => 1, X - C 1, X⟩, .u), c)]} ≤ 2 * K.n :=
  (C103_breaks K _ [.first] fun e he p hp => by
    obtain rfl := List.mem_singleton.mp he
    cases p <;> first | rfl | exact absurd List.mem_cons_self hp).trans (by simp)

end Props
