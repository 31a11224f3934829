import Verif.Props.Collision
import Verif.Props.IdealLemmas

/-!
# The hash modes with an ideal permutation: C83

`hash_msg` and `hash_with_domain` take the permutation as a black box. If it is chosen at random among all permutations
of the states, an adversary who may ask it and its inverse at `n` points finds a collision or a preimage with
probability at most about `2 n² / r`.
-/

set_option linter.unusedVariables false

namespace Props
open Base Base.Bn256 Collide Ideal

section General
variable {F : Type} [Field F]

/-- A triple as a state. -/
def vec (s : F × F × F) : State F 3 := ![s.1, s.2.1, s.2.2]

/-- The transcript contains all points where the sponge evaluates `π` while absorbing pairs from capacity `c`. -/
def Asked (π : State F 3 → State F 3) (H : List (Entry (State F 3))) (c : F) (m : List (F × F)) : Prop :=
  ∀ s ∈ queries (Spec.onTriples π) (c, 0, 0) m, ∃ e ∈ H, e.2.1 = vec s

omit [Field F] in
theorem vec_onTriples (π : State F 3 → State F 3) (s : F × F × F) : vec (Spec.onTriples π s) = π (vec s) := by
  obtain ⟨a, b, c⟩ := s
  funext i
  fin_cases i <;> rfl

omit [Field F] in
theorem vec_inj {s t : F × F × F} (h : vec s = vec t) : s = t := by
  have h0 := congrFun h 0
  have h1 := congrFun h 1
  have h2 := congrFun h 2
  exact Prod.ext h0 (Prod.ext h1 h2)

/-- On a good transcript the points of an evaluation were all asked forward. -/
private theorem forward {roots : Finset F} {π : Equiv.Perm (State F 3)} {L : List (Entry (State F 3))}
    (h1 : ∀ e ∈ L, newLabel (fun s => s 0) e ∉ roots ∧ newLabel (fun s => s 0) e ≠ oldLabel (fun s => s 0) e)
    (h2 : L.Pairwise fun e e' : Entry (State F 3) => newLabel (fun s => s 0) e ≠ e'.2.1 0 ∧ newLabel (fun s => s 0) e ≠ e'.2.2 0)
    (hx : ∀ e ∈ L, π e.2.1 = e.2.2) : ∀ (m : List (F × F)) (s : F × F × F),
    (s.1 ∈ roots ∨ ∃ e ∈ L, e.1 = true ∧ e.2.2 0 = s.1) →
    (∀ p ∈ queries (Spec.onTriples π) s m, ∃ e ∈ L, e.2.1 = vec p) →
    ∀ p ∈ queries (Spec.onTriples π) s m, (true, vec p, π (vec p)) ∈ L := by
  have sym : ∀ e ∈ L, ∀ e' ∈ L, e ≠ e' → (newLabel (fun s => s 0) e ≠ e'.2.1 0 ∧ newLabel (fun s => s 0) e ≠ e'.2.2 0) ∨
      (newLabel (fun s => s 0) e' ≠ e.2.1 0 ∧ newLabel (fun s => s 0) e' ≠ e.2.2 0) := fun e he e' he' hne => pairwise_or h2 he he' hne
  intro m
  induction m with
  | nil => intro s _ _ p hp; exact absurd hp List.not_mem_nil
  | cons w m ih =>
    rintro ⟨c, x, y⟩ hs ha p hp
    set t : F × F × F := (c, x + w.1, y + w.2) with ht
    have hq : queries (Spec.onTriples π) (c, x, y) (w :: m) = t :: queries (Spec.onTriples π) (Spec.onTriples π t) m := rfl
    rw [hq] at ha hp
    have first : (true, vec t, π (vec t)) ∈ L := by
      obtain ⟨⟨d, a, b⟩, he, hea⟩ := ha t List.mem_cons_self
      have hb := hx _ he
      simp only at hea hb
      subst hea
      subst hb
      cases d
      swap
      · exact he
      exfalso
      rcases hs with hr | ⟨e', he', hd, hc⟩
      · exact (h1 _ he).1 hr
      · have hne : (false, vec t, π (vec t)) ≠ e' := by
          rintro rfl
          exact absurd hd (by simp)
        rcases sym _ he _ he' hne with h | h
        · exact h.2 hc.symm
        · refine h.1 ?_
          show newLabel (fun s => s 0) e' = c
          rw [newLabel, hd, if_pos rfl, hc]
    rcases List.mem_cons.1 hp with rfl | hp
    · exact first
    · exact ih _ (.inr ⟨_, first, rfl, by exact (congrFun (vec_onTriples π t) 0).symm⟩)
        (fun p hp => ha p (List.mem_cons_of_mem _ hp)) p hp

/-- What a good transcript excludes. -/
theorem good_spec {roots : Finset F} {π : Equiv.Perm (State F 3)} {H : List (Entry (State F 3))}
    (hg : Good (fun s => s 0) roots H) (hx : Extends π H) :
    (∀ c ∈ roots, ∀ m, Asked π H c m → ∀ s ∈ queries (Spec.onTriples π) (c, 0, 0) m, (Spec.onTriples π s).1 ∉ roots) ∧
    ∀ c ∈ roots, ∀ m, Asked π H c m → ∀ c' ∈ roots, ∀ m', Asked π H c' m' →
      ∀ s ∈ queries (Spec.onTriples π) (c, 0, 0) m, ∀ s' ∈ queries (Spec.onTriples π) (c', 0, 0) m',
        (Spec.onTriples π s).1 = (Spec.onTriples π s').1 → s = s' := by
  obtain ⟨L, h1, h2, h3, h4⟩ := hg.distinct
  have hxL : ∀ e ∈ L, π e.2.1 = e.2.2 := fun e he => hx e (h3 e he)
  have fwd : ∀ c ∈ roots, ∀ m, Asked π H c m → ∀ s ∈ queries (Spec.onTriples π) (c, 0, 0) m,
      (true, vec s, π (vec s)) ∈ L := by
    intro c hc m ha s hs
    refine forward h1 h2 hxL m (c, 0, 0) (.inl hc) (fun p hp => ?_) s hs
    obtain ⟨e, he, hep⟩ := ha p hp
    obtain ⟨e', he', h⟩ := h4 e he
    exact ⟨e', he', by rw [h, hep]⟩
  constructor
  · intro c hc m ha s hs
    exact (h1 _ (fwd c hc m ha s hs)).1
  · intro c hc m ha c' hc' m' ha' s hs s' hs' h
    by_contra hne
    have a1 := fwd c hc m ha s hs
    have a2 := fwd c' hc' m' ha' s' hs'
    have := pairwise_or h2 a1 a2 (by
        intro e
        exact hne (vec_inj (Prod.mk.inj (Prod.mk.inj e).2).1))
    rcases this with g | g
    · exact g.2 h
    · exact g.2 h.symm

variable [Fintype F] [DecidableEq F]

omit [Field F] [DecidableEq F] in
theorem card_state : Fintype.card (State F 3) = Fintype.card F ^ 2 * Fintype.card F := by
  rw [Fintype.card_fun, Fintype.card_fin]
  ring

omit [Field F] in
theorem card_label (k : F) : (Finset.univ.filter fun s : State F 3 => s 0 = k).card ≤ Fintype.card F ^ 2 := by
  have : (Finset.univ.filter fun s : State F 3 => s 0 = k).card ≤ (Finset.univ : Finset (F × F)).card := by
    refine Finset.card_le_card_of_injOn (fun s => (s 1, s 2)) (fun _ _ => Finset.mem_coe.2 (Finset.mem_univ _)) ?_
    intro s hs t ht h
    have hs := (Finset.mem_filter.1 hs).2
    have ht := (Finset.mem_filter.1 ht).2
    have h := Prod.mk.inj h
    funext i
    fin_cases i
    · exact hs.trans ht.symm
    · exact h.1
    · exact h.2
  rw [Finset.card_univ, Fintype.card_prod] at this
  rw [pow_two]
  exact this

/-- **C83.** For every strategy of `n` queries: the permutations for which two different inputs (capacity in `roots`, at least
one block) with all their evaluations in the transcript have the same digest are at most `2 n (n + |roots|)` in `q`. -/
theorem C83_collision {q : ℕ} (hq : Fintype.card F = q) (A : Strategy (State F 3)) (n : ℕ) (hn : 2 * n ≤ q ^ 3)
    (roots : Finset F) :
    {π : Equiv.Perm (State F 3) | ∃ c ∈ roots, ∃ c' ∈ roots, ∃ m m' : List (F × F), m ≠ [] ∧ m' ≠ [] ∧ (c, m) ≠ (c', m') ∧
      Asked π (transcript A π n) c m ∧ Asked π (transcript A π n) c' m' ∧
      (absorb (Spec.onTriples π) (c, 0, 0) m).1 = (absorb (Spec.onTriples π) (c', 0, 0) m').1}.ncard * q ≤
      2 * n * (n + roots.card) * (q ^ 3).factorial := by
  subst hq
  have hc : Fintype.card (State F 3) = Fintype.card F ^ 3 := by rw [card_state]; ring
  have := bad_le (lab := fun s : State F 3 => s 0) card_label card_state (pow_pos Fintype.card_pos 2) roots A n (by rwa [hc])
  rw [hc] at this
  refine (Nat.mul_le_mul_right _ (Set.ncard_le_ncard ?_ (Set.toFinite _))).trans this
  rintro π ⟨c, hc, c', hc', m, m', hm, hm', hne, ha, ha', h⟩ hg
  obtain ⟨g1, g2⟩ := good_spec hg (extends_transcript A π n)
  rcases reduction _ c c' m m' hm hm' h with ⟨rfl, rfl⟩ | ⟨s, hs, s', hs', hne, h⟩ | ⟨s, hs, h⟩ | ⟨s, hs, h⟩
  · exact hne rfl
  · exact hne (g2 c hc m ha c' hc' m' ha' s hs s' hs' h)
  · exact g1 c hc m ha s hs (h ▸ hc')
  · exact g1 c' hc' m' ha' s hs (h ▸ hc)

/-- **C83**, preimages: the permutations for which an input in the transcript has a digest among given ones. -/
theorem C83_preimage {q : ℕ} (hq : Fintype.card F = q) (A : Strategy (State F 3)) (n : ℕ) (hn : 2 * n ≤ q ^ 3)
    (roots targets : Finset F) :
    {π : Equiv.Perm (State F 3) | ∃ c ∈ roots, ∃ m : List (F × F), m ≠ [] ∧ Asked π (transcript A π n) c m ∧
      (absorb (Spec.onTriples π) (c, 0, 0) m).1 ∈ targets}.ncard * q ≤
      2 * n * (n + roots.card + targets.card) * (q ^ 3).factorial := by
  subst hq
  have hc : Fintype.card (State F 3) = Fintype.card F ^ 3 := by rw [card_state]; ring
  have := bad_le (lab := fun s : State F 3 => s 0) card_label card_state (pow_pos Fintype.card_pos 2) (roots ∪ targets) A n
    (by rwa [hc])
  rw [hc] at this
  refine (Nat.mul_le_mul_right _ (Set.ncard_le_ncard ?_ (Set.toFinite _))).trans (this.trans ?_)
  · rintro π ⟨c, hc, m, hm, ha, h⟩ hg
    obtain ⟨g1, -⟩ := good_spec hg (extends_transcript A π n)
    rcases List.eq_nil_or_concat' m with rfl | ⟨m, w, rfl⟩
    · exact hm rfl
    · rw [absorb_snoc] at h
      exact g1 c (Finset.mem_union_left _ hc) _ ha _ (by simp [queries_snoc]) (Finset.mem_union_right _ h)
  · refine Nat.mul_le_mul_right _ (Nat.mul_le_mul_left _ ?_)
    rw [Nat.add_assoc]
    exact Nat.add_le_add_left (Finset.card_union_le _ _) n

end General

/-! ### The functions of the crate -/

/-- A call of one of the two hash functions. -/
inductive Call
  | msg (m : List Fr)
  | node (d a b : Fr)

/-- The capacity word and the pairs of words that a call absorbs. -/
def Call.cap (legacy : Bool) : Call → Fr
  | .msg m => ((m.length * if legacy then 1 else 2 ^ 64 : ℕ) : Fr)
  | .node d _ _ => d

def Call.blocks : Call → List (Fr × Fr)
  | .msg m => pairs m
  | .node _ a b => [(a, b)]

/-- The code of the call, with `perm` in place of the permutation. -/
def Call.run (legacy : Bool) (perm : State Fr 3 → State Fr 3) : Call → Except Panic Fr
  | .msg m => hashMsg legacy perm m none
  | .node d a b => hashWithDomain perm ![a, b] d

/-- Messages of 1 to `len` words, and nodes with given domains. -/
def Call.Valid (len : ℕ) (domains : Finset Fr) : Call → Prop
  | .msg m => m ≠ [] ∧ m.length ≤ len
  | .node d _ _ => d ∈ domains

theorem Call.run_eq (legacy : Bool) (perm : State Fr 3 → State Fr 3) {len : ℕ} (hl : len < 2 ^ 64) {domains : Finset Fr}
    {x : Call} (h : x.Valid len domains) :
    x.run legacy perm = .ok (absorb (Spec.onTriples perm) (x.cap legacy, 0, 0) x.blocks).1 := by
  cases x with
  | msg m =>
    rw [Call.run, C05_hash_msg legacy perm m (lt_of_le_of_lt h.2 hl) h.1, Spec.spongeHash, absorb_pairs]
    rfl
  | node d a b =>
    rw [Call.run, (C04_hash_with_domain perm a b d).1]
    simp [Call.blocks, Call.cap, absorb, Spec.onTriples]

theorem Call.blocks_ne_nil {len : ℕ} {domains : Finset Fr} {x : Call} (h : x.Valid len domains) : x.blocks ≠ [] := by
  cases x with
  | msg m => exact pairs_ne_nil h.1
  | node d a b => exact List.cons_ne_nil _ _

/-- The capacities of the valid calls. -/
theorem Call.cap_mem (legacy : Bool) {len : ℕ} {domains : Finset Fr} {x : Call} (h : x.Valid len domains) :
    x.cap legacy ∈ (Finset.range len).image (fun l => (((l + 1) * if legacy then 1 else 2 ^ 64 : ℕ) : Fr)) ∪ domains := by
  cases x with
  | msg m =>
    have h0 := List.length_pos_iff.2 h.1
    refine Finset.mem_union_left _ (Finset.mem_image.2 ⟨m.length - 1, Finset.mem_range.2 (by have := h.2; omega), ?_⟩)
    rw [Nat.sub_add_cancel h0]
    rfl
  | node d a b => exact Finset.mem_union_right _ h

theorem Call.card_caps (legacy : Bool) (len : ℕ) (domains : Finset Fr) :
    ((Finset.range len).image (fun l => (((l + 1) * if legacy then 1 else 2 ^ 64 : ℕ) : Fr)) ∪ domains).card ≤
      len + domains.card := by
  refine (Finset.card_union_le _ _).trans (Nat.add_le_add_right (Finset.card_image_le.trans ?_) _)
  rw [Finset.card_range]

/-- **C83**, meaning of the transcript: a call all of whose evaluations are in it has the same result for every permutation
with these values. -/
theorem C83_asked (legacy : Bool) (π π' : Equiv.Perm (State Fr 3)) (H : List (Entry (State Fr 3))) (hx : Extends π H)
    (hx' : Extends π' H) (x : Call) {len : ℕ} (hl : len < 2 ^ 64) {domains : Finset Fr} (h : x.Valid len domains)
    (ha : Asked π H (x.cap legacy) x.blocks) : x.run legacy π' = x.run legacy π := by
  rw [x.run_eq legacy π hl h, x.run_eq legacy π' hl h]
  congr 2
  have key : ∀ (m : List (Fr × Fr)) (s : Fr × Fr × Fr),
      (∀ p ∈ queries (Spec.onTriples π) s m, ∃ e ∈ H, e.2.1 = vec p) →
      absorb (Spec.onTriples π') s m = absorb (Spec.onTriples π) s m := by
    intro m
    induction m with
    | nil => intro s _; rfl
    | cons w m ih =>
      rintro ⟨c, y, z⟩ hs
      have e : Spec.onTriples π' (c, y + w.1, z + w.2) = Spec.onTriples π (c, y + w.1, z + w.2) := by
        obtain ⟨e, he, hev⟩ := hs (c, y + w.1, z + w.2) List.mem_cons_self
        refine vec_inj ?_
        rw [vec_onTriples, vec_onTriples, ← hev, hx e he, hx' e he]
      show absorb _ (Spec.onTriples π' (c, y + w.1, z + w.2)) m = absorb _ (Spec.onTriples π (c, y + w.1, z + w.2)) m
      rw [e]
      exact ih _ fun p hp => hs p (List.mem_cons_of_mem _ hp)
  exact key _ _ ha

/-- **C83**, collisions of the crate's functions: two different calls (messages of up to `len` words with the default
capacity, nodes with domains that are no such capacity) with the same result. -/
theorem C83_calls (legacy : Bool) (A : Strategy (State Fr 3)) (n : ℕ) (hn : 2 * n ≤ r ^ 3) (len : ℕ) (hl : len < 2 ^ 64)
    (domains : Finset Fr) (hd : ∀ l, 1 ≤ l → l ≤ len → ((l * if legacy then 1 else 2 ^ 64 : ℕ) : Fr) ∉ domains) :
    {π : Equiv.Perm (State Fr 3) | ∃ x y : Call, x ≠ y ∧ x.Valid len domains ∧ y.Valid len domains ∧
      Asked π (transcript A π n) (x.cap legacy) x.blocks ∧ Asked π (transcript A π n) (y.cap legacy) y.blocks ∧
      x.run legacy π = y.run legacy π}.ncard * r ≤ 2 * n * (n + (len + domains.card)) * (r ^ 3).factorial := by
  have key := C83_collision (ZMod.card r) A n hn
    ((Finset.range len).image (fun l => (((l + 1) * if legacy then 1 else 2 ^ 64 : ℕ) : Fr)) ∪ domains)
  refine (Nat.mul_le_mul_right _ (Set.ncard_le_ncard ?_ (Set.toFinite _))).trans (key.trans
    (Nat.mul_le_mul_right _ (Nat.mul_le_mul_left _ (Nat.add_le_add_left (Call.card_caps legacy len domains) _))))
  rintro π ⟨x, y, hne, hx, hy, ax, ay, h⟩
  rw [x.run_eq legacy π hl hx, y.run_eq legacy π hl hy] at h
  refine ⟨_, Call.cap_mem legacy hx, _, Call.cap_mem legacy hy, _, _, Call.blocks_ne_nil hx, Call.blocks_ne_nil hy, ?_, ax, ay,
    Except.ok.inj h⟩
  intro e
  obtain ⟨e1, e2⟩ := Prod.mk.inj e
  apply hne
  cases x with
  | msg m =>
    have hm0 := List.length_pos_iff.2 hx.1
    cases y with
    | msg m' =>
      have : m.length = m'.length := by
        by_contra hlen
        exact (C07_default_capacity legacy _ _ (lt_of_le_of_lt hx.2 hl) (lt_of_le_of_lt hy.2 hl)).2 hlen e1
      rw [pairs_inj m m' this e2]
    | node d a b =>
      have e1 : ((m.length * if legacy then 1 else 2 ^ 64 : ℕ) : Fr) = d := e1
      have hy : d ∈ domains := hy
      rw [← e1] at hy
      exact absurd hy (hd m.length hm0 hx.2)
  | node d a b =>
    cases y with
    | msg m' =>
      have e1 : d = ((m'.length * if legacy then 1 else 2 ^ 64 : ℕ) : Fr) := e1
      have hx : d ∈ domains := hx
      rw [e1] at hx
      exact absurd hx (hd m'.length (List.length_pos_iff.2 hy.1) hy.2)
    | node d' a' b' =>
      have e1 : d = d' := e1
      have e2 : [(a, b)] = [(a', b')] := e2
      simp only [List.cons.injEq, Prod.mk.injEq, and_true] at e2
      rw [e1, e2.1, e2.2]

/-- **C83**, preimages of the crate's functions: a call whose digest is one of `targets`. -/
theorem C83_targets (legacy : Bool) (A : Strategy (State Fr 3)) (n : ℕ) (hn : 2 * n ≤ r ^ 3) (len : ℕ) (hl : len < 2 ^ 64)
    (domains targets : Finset Fr) :
    {π : Equiv.Perm (State Fr 3) | ∃ x : Call, x.Valid len domains ∧
      Asked π (transcript A π n) (x.cap legacy) x.blocks ∧ ∃ D ∈ targets, x.run legacy π = .ok D}.ncard * r ≤
      2 * n * (n + (len + domains.card) + targets.card) * (r ^ 3).factorial := by
  have key := C83_preimage (ZMod.card r) A n hn
    ((Finset.range len).image (fun l => (((l + 1) * if legacy then 1 else 2 ^ 64 : ℕ) : Fr)) ∪ domains) targets
  refine (Nat.mul_le_mul_right _ (Set.ncard_le_ncard ?_ (Set.toFinite _))).trans (key.trans
    (Nat.mul_le_mul_right _ (Nat.mul_le_mul_left _ (Nat.add_le_add_right (Nat.add_le_add_left
      (Call.card_caps legacy len domains) _) _))))
  rintro π ⟨x, hx, ax, D, hD, h⟩
  rw [x.run_eq legacy π hl hx] at h
  exact ⟨_, Call.cap_mem legacy hx, _, Call.blocks_ne_nil hx, ax, by rwa [Except.ok.inj h]⟩

/-- **C83**, in numbers: with `2^120` queries and up to `2^64` capacities and targets, less than one permutation in `2^12`. -/
theorem C83_numbers (legacy : Bool) (A : Strategy (State Fr 3)) (n : ℕ) (hn : n ≤ 2 ^ 120) (len : ℕ) (domains targets : Finset Fr)
    (hcard : len + domains.card + targets.card < 2 ^ 64)
    (hd : ∀ l, 1 ≤ l → l ≤ len → ((l * if legacy then 1 else 2 ^ 64 : ℕ) : Fr) ∉ domains) :
    {π : Equiv.Perm (State Fr 3) | ∃ x y : Call, x ≠ y ∧ x.Valid len domains ∧ y.Valid len domains ∧
      Asked π (transcript A π n) (x.cap legacy) x.blocks ∧ Asked π (transcript A π n) (y.cap legacy) y.blocks ∧
      x.run legacy π = y.run legacy π}.ncard * 2 ^ 12 < Fintype.card (Equiv.Perm (State Fr 3)) ∧
    {π : Equiv.Perm (State Fr 3) | ∃ x : Call, x.Valid len domains ∧
      Asked π (transcript A π n) (x.cap legacy) x.blocks ∧ ∃ D ∈ targets, x.run legacy π = .ok D}.ncard * 2 ^ 12 <
      Fintype.card (Equiv.Perm (State Fr 3)) := by
  have hr : 2 * 2 ^ 120 * (2 ^ 120 + 2 ^ 64) * 2 ^ 12 < r := by norm_num [r]
  have h2 : 2 * n ≤ r ^ 3 := by
    have : 2 * 2 ^ 120 ≤ r ^ 3 := by norm_num [r]
    omega
  have c : Fintype.card (Equiv.Perm (State Fr 3)) = (r ^ 3).factorial := by
    rw [Fintype.card_perm, card_state, ZMod.card]
    congr 1
  have fin : ∀ N k : ℕ, N * r ≤ 2 * n * (n + k) * (r ^ 3).factorial → k ≤ 2 ^ 64 → N * 2 ^ 12 < (r ^ 3).factorial := by
    intro N k h hk
    have hf := Nat.factorial_pos (r ^ 3)
    generalize (r ^ 3).factorial = f at h hf
    by_contra hc
    rw [not_lt] at hc
    have h3 : 2 * n * (n + k) ≤ 2 * 2 ^ 120 * (2 ^ 120 + 2 ^ 64) :=
      Nat.mul_le_mul (Nat.mul_le_mul_left _ hn) (Nat.add_le_add hn hk)
    have h4 : f * r ≤ N * r * 2 ^ 12 := by
      calc f * r ≤ N * 2 ^ 12 * r := Nat.mul_le_mul_right _ hc
        _ = N * r * 2 ^ 12 := by ring
    have h5 : N * r * 2 ^ 12 ≤ f * (2 * 2 ^ 120 * (2 ^ 120 + 2 ^ 64) * 2 ^ 12) := by
      calc N * r * 2 ^ 12 ≤ 2 * n * (n + k) * f * 2 ^ 12 := Nat.mul_le_mul_right _ h
        _ ≤ 2 * 2 ^ 120 * (2 ^ 120 + 2 ^ 64) * f * 2 ^ 12 := Nat.mul_le_mul_right _ (Nat.mul_le_mul_right _ h3)
        _ = f * (2 * 2 ^ 120 * (2 ^ 120 + 2 ^ 64) * 2 ^ 12) := by ring
    exact absurd (h4.trans h5) (not_le.2 (Nat.mul_lt_mul_of_pos_left hr hf))
  rw [c]
  refine ⟨fin _ _ (C83_calls legacy A n h2 len (by omega) domains hd) (by omega),
    fin _ (len + domains.card + targets.card) ?_ (by omega)⟩
  have := C83_targets legacy A n h2 len (by omega) domains targets
  rwa [Nat.add_assoc] at this

/-! ### The hypotheses can be met -/

/-- The sets are not empty: for the identity, two queries find a collision of nodes with domain 0. -/
example : ∃ A : Strategy (State Fr 3), (1 : Equiv.Perm (State Fr 3)) ∈
    {π : Equiv.Perm (State Fr 3) | ∃ x y : Call, x ≠ y ∧ x.Valid 5 {0} ∧ y.Valid 5 {0} ∧
      Asked π (transcript A π 2) (x.cap false) x.blocks ∧ Asked π (transcript A π 2) (y.cap false) y.blocks ∧
      x.run false π = y.run false π} := by
  refine ⟨fun H => (true, if H = [] then ![0, 1, 2] else ![0, 3, 4]), .node 0 1 2, .node 0 3 4, ?_, by simp [Call.Valid],
    by simp [Call.Valid], ?_, ?_, ?_⟩
  · intro h
    have := (Call.node.inj h).2.1
    revert this
    decide
  · simp [Asked, transcript, answer, Call.blocks, Call.cap, queries, vec]
  · simp [Asked, transcript, answer, Call.blocks, Call.cap, queries, vec]
  · simp [Call.run, (C04_hash_with_domain _ _ _ _).1]

/-- Domain 0 is no capacity of a message. -/
example : ∀ l, 1 ≤ l → l ≤ 1000 → ((l * if false then 1 else 2 ^ 64 : ℕ) : Fr) ∉ ({0} : Finset Fr) := by
  intro l h1 h2 h
  rw [Finset.mem_singleton] at h
  have := (C07_default_capacity false l 0 (by omega) (by norm_num)).2 (by omega)
  rw [Nat.zero_mul, Nat.cast_zero] at this
  exact this h

end Props
