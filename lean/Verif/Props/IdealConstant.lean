import Verif.Props.ConstantCollision
import Verif.Props.IdealLemmas

/-!
# Constant-length hashing with an ideal permutation: C114

C83 is about `hash_msg` and `hash_with_domain`, where the digest is the capacity word. In `ConstantLength` the digest is word 0, which
belongs to the rate, and the capacity is word `RATE`; the width is `RATE + 1` as in all instances of the gadget.
-/

set_option linter.unusedVariables false
set_option linter.unusedSectionVars false

namespace Props
open Base Blocks Ideal

section
variable {F : Type} [Field F] {t : ℕ}

/-! ### Specification -/

/-- The hash of a message by the code, with the permutation `π`. -/
def constHash (t : ℕ) (π : State F (t + 1) → State F (t + 1)) (m : List F) : Except Panic F :=
  Hash.hashConst π (Hash.init (T := t + 1) (RATE := t) (.constantLength m.length)) m.get

/-- The transcript has all inputs on which the permutation is evaluated for the message. -/
def Evaluated (π : State F (t + 1) → State F (t + 1)) (H : List (Entry (State F (t + 1)))) (m : List F) : Prop :=
  ∀ s ∈ inputs π (lengthState (t + 1) t F m.length) (blocks (t + 1) 0 t m), ∃ e ∈ H, e.2.1 = s

/-! ### Lemmas -/

theorem constHash_eq (ht : 0 < t) (π : State F (t + 1) → State F (t + 1)) {m : List F} (hm : m ≠ []) :
    constHash t π m = .ok (absorb π (lengthState (t + 1) t F m.length) (blocks (t + 1) 0 t m) 0) := by
  rw [constHash, C10_constant_length ht (Nat.lt_succ_self t), if_neg (by simpa using hm), List.ofFn_get, absorb_blocks π 0 ht]
  rfl

/-- What two labels say of one list without repetitions. -/
theorem Good.distinct₂ {S K K' : Type} {lab : S → K} {lab' : S → K'} {roots : Finset K} {roots' : Finset K'} :
    ∀ {H : List (Entry S)}, Good lab roots H → Good lab' roots' H →
    ∃ L : List (Entry S), (∀ e ∈ L, newLabel lab e ∉ roots ∧ newLabel lab' e ∉ roots') ∧
      L.Pairwise (fun e e' => newLabel lab e ≠ lab e'.2.1 ∧ newLabel lab e ≠ lab e'.2.2 ∧ newLabel lab' e ≠ lab' e'.2.2) ∧
      (∀ e ∈ L, e ∈ H) ∧ ∀ e ∈ H, ∃ e' ∈ L, e'.2 = e.2
  | [], _, _ => ⟨[], by simp⟩
  | e :: H, ⟨h, hr⟩, ⟨h', hr'⟩ => by
    obtain ⟨L, h1, h2, h3, h4⟩ := Good.distinct₂ h h'
    have rep : (∃ e' ∈ H, e'.2 = e.2) → ∃ L : List (Entry S), (∀ e ∈ L, newLabel lab e ∉ roots ∧ newLabel lab' e ∉ roots') ∧
      L.Pairwise (fun e e' => newLabel lab e ≠ lab e'.2.1 ∧ newLabel lab e ≠ lab e'.2.2 ∧ newLabel lab' e ≠ lab' e'.2.2) ∧
      (∀ e' ∈ L, e' ∈ e :: H) ∧ ∀ e' ∈ e :: H, ∃ e'' ∈ L, e''.2 = e'.2 := by
      rintro ⟨e', he', heq⟩
      refine ⟨L, h1, h2, fun x hx => List.mem_cons_of_mem _ (h3 x hx), fun x hx => ?_⟩
      rcases List.mem_cons.1 hx with rfl | hx
      · obtain ⟨y, hy, e⟩ := h4 e' he'
        exact ⟨y, hy, e.trans heq⟩
      · exact h4 x hx
    rcases hr with hr | ⟨f1, f2, f3⟩
    · exact rep hr
    rcases hr' with hr' | ⟨f1', f2', f3'⟩
    · exact rep hr'
    refine ⟨e :: L, ?_, List.pairwise_cons.2 ⟨fun x hx => ?_, h2⟩, ?_, ?_⟩
    · intro x hx
      rcases List.mem_cons.1 hx with rfl | hx
      · exact ⟨f1, f1'⟩
      · exact h1 x hx
    · have := h3 x hx
      refine ⟨fun e1 => f3 (List.mem_flatMap.2 ⟨x, this, by rw [e1]; simp⟩),
        fun e1 => f3 (List.mem_flatMap.2 ⟨x, this, by rw [e1]; simp⟩),
        fun e1 => f3' (List.mem_flatMap.2 ⟨x, this, by rw [e1]; simp⟩)⟩
    · intro x hx
      rcases List.mem_cons.1 hx with rfl | hx
      · exact List.mem_cons_self
      · exact List.mem_cons_of_mem _ (h3 x hx)
    · intro x hx
      rcases List.mem_cons.1 hx with rfl | hx
      · exact ⟨x, List.mem_cons_self, rfl⟩
      · obtain ⟨y, hy, e⟩ := h4 x hx
        exact ⟨y, List.mem_cons_of_mem _ hy, e⟩

/-- The capacity word. -/
abbrev capWord (s : State F (t + 1)) : F := s (Fin.last t)

/-- The digest word. -/
abbrev outWord (s : State F (t + 1)) : F := s 0

theorem last_isCap : IsCap 0 t (Fin.last t).val := .inr (by simp)

/-- The inputs of an evaluation were asked forward. -/
theorem forward {roots : Finset F} {π : Equiv.Perm (State F (t + 1))} {L : List (Entry (State F (t + 1)))}
    (h1 : ∀ e ∈ L, newLabel capWord e ∉ roots)
    (h2 : L.Pairwise fun e e' => newLabel capWord e ≠ capWord e'.2.1 ∧ newLabel capWord e ≠ capWord e'.2.2)
    (hx : ∀ e ∈ L, π e.2.1 = e.2.2) : ∀ (m : List (Fin (t + 1) → F)), (∀ b ∈ m, b (Fin.last t) = 0) → ∀ s : State F (t + 1),
    (capWord s ∈ roots ∨ ∃ e ∈ L, e.1 = true ∧ capWord e.2.2 = capWord s) →
    (∀ p ∈ inputs π s m, ∃ e ∈ L, e.2.1 = p) → ∀ p ∈ inputs π s m, (true, p, π p) ∈ L := by
  intro m
  induction m with
  | nil => intro _ s _ _ p hp; exact absurd hp List.not_mem_nil
  | cons b m ih =>
    intro hb s hs ha p hp
    have hcap : capWord (s + b) = capWord s := by
      show s (Fin.last t) + b (Fin.last t) = _
      rw [hb b List.mem_cons_self, add_zero]
    have first : (true, s + b, π (s + b)) ∈ L := by
      obtain ⟨⟨d, a, c⟩, he, hea⟩ := ha (s + b) List.mem_cons_self
      have hc := hx _ he
      simp only at hea hc
      subst hea
      subst hc
      cases d
      swap
      · exact he
      exfalso
      rcases hs with hr | ⟨e', he', hd, hc⟩
      · refine h1 _ he ?_
        show capWord (s + b) ∈ roots
        rwa [hcap]
      · have hne : (false, s + b, π (s + b)) ≠ e' := by
          rintro rfl
          exact absurd hd (by simp)
        rcases pairwise_or h2 he he' hne with h | h
        · exact h.2 (hcap.trans hc.symm)
        · refine h.1 ?_
          rw [newLabel, hd, if_pos rfl]
          exact hc.trans hcap.symm
    rcases List.mem_cons.1 hp with rfl | hp
    · exact first
    · exact ih (fun c hc => hb c (List.mem_cons_of_mem _ hc)) _ (.inr ⟨_, first, rfl, rfl⟩)
        (fun p hp => ha p (List.mem_cons_of_mem _ hp)) p hp

/-- What a good transcript excludes. -/
theorem good_constant {roots targets : Finset F} {π : Equiv.Perm (State F (t + 1))} {H : List (Entry (State F (t + 1)))} (ht : 0 < t)
    (hg : Good capWord roots H) (hg' : Good outWord targets H) (hx : Extends π H) :
    (∀ m, ((m.length * 2 ^ 64 : ℕ) : F) ∈ roots → Evaluated π H m →
      ∀ s ∈ inputs π (lengthState (t + 1) t F m.length) (blocks (t + 1) 0 t m), π s (Fin.last t) ∉ roots ∧ π s 0 ∉ targets) ∧
    ∀ m m', ((m.length * 2 ^ 64 : ℕ) : F) ∈ roots → ((m'.length * 2 ^ 64 : ℕ) : F) ∈ roots → Evaluated π H m → Evaluated π H m' →
      ∀ s ∈ inputs π (lengthState (t + 1) t F m.length) (blocks (t + 1) 0 t m),
      ∀ s' ∈ inputs π (lengthState (t + 1) t F m'.length) (blocks (t + 1) 0 t m'),
        (π s (Fin.last t) = π s' (Fin.last t) ∨ π s 0 = π s' 0) → s = s' := by
  obtain ⟨L, h1, h2, h3, h4⟩ := Good.distinct₂ hg hg'
  have hxL : ∀ e ∈ L, π e.2.1 = e.2.2 := fun e he => hx e (h3 e he)
  have fwd : ∀ m, ((m.length * 2 ^ 64 : ℕ) : F) ∈ roots → Evaluated π H m →
      ∀ s ∈ inputs π (lengthState (t + 1) t F m.length) (blocks (t + 1) 0 t m), (true, s, π s) ∈ L := by
    intro m hm ha s hs
    refine forward (fun e he => (h1 e he).1) (h2.imp fun h => ⟨h.1, h.2.1⟩) hxL _ (fun b hb => blocks_cap 0 ht m b hb _ last_isCap) _
      (.inl ?_) (fun p hp => ?_) s hs
    · show lengthState (t + 1) t F m.length (Fin.last t) ∈ roots
      rw [lengthState, if_pos (by simp)]
      exact hm
    · obtain ⟨e, he, hep⟩ := ha p hp
      obtain ⟨e', he', h⟩ := h4 e he
      exact ⟨e', he', by rw [h, hep]⟩
  refine ⟨fun m hm ha s hs => h1 _ (fwd m hm ha s hs), fun m m' hm hm' ha ha' s hs s' hs' h => ?_⟩
  by_contra hne
  have := pairwise_or h2 (fwd m hm ha s hs) (fwd m' hm' ha' s' hs') (fun e => hne (Prod.mk.inj (Prod.mk.inj e).2).1)
  rcases this with ⟨-, g1, g2⟩ | ⟨-, g1, g2⟩ <;> rcases h with h | h
  · exact g1 h
  · exact g2 h
  · exact g1 h.symm
  · exact g2 h.symm

variable [Fintype F] [DecidableEq F]

omit [Field F] in
theorem card_word (i : Fin (t + 1)) (k : F) : (Finset.univ.filter fun s : State F (t + 1) => s i = k).card ≤ Fintype.card F ^ t := by
  have : (Finset.univ.filter fun s : State F (t + 1) => s i = k).card ≤ (Finset.univ : Finset (Fin t → F)).card := by
    refine Finset.card_le_card_of_injOn (fun s j => s (i.succAbove j)) (fun _ _ => Finset.mem_coe.2 (Finset.mem_univ _)) ?_
    intro s hs u hu h
    have hs := (Finset.mem_filter.1 hs).2
    have hu := (Finset.mem_filter.1 hu).2
    funext j
    rcases Fin.eq_self_or_eq_succAbove i j with rfl | ⟨l, rfl⟩
    · exact hs.trans hu.symm
    · exact congrFun h l
  rwa [Finset.card_univ, Fintype.card_fun, Fintype.card_fin] at this

/-- The permutations with a bad transcript. -/
theorem bad_constant {q : ℕ} (hq : Fintype.card F = q) (A : Strategy (State F (t + 1))) (n : ℕ) (hn : 2 * n ≤ q ^ (t + 1))
    (roots targets : Finset F) :
    {π : Equiv.Perm (State F (t + 1)) | ¬ (Good capWord roots (transcript A π n) ∧ Good outWord targets (transcript A π n))}.ncard * q ≤
      2 * n * (2 * n + roots.card + targets.card) * (q ^ (t + 1)).factorial := by
  subst hq
  have hS : Fintype.card (State F (t + 1)) = Fintype.card F ^ (t + 1) := by rw [Fintype.card_fun, Fintype.card_fin]
  have hS' : Fintype.card (State F (t + 1)) = Fintype.card F ^ t * Fintype.card F := by rw [hS, pow_succ]
  have h1 := bad_le (lab := capWord) (card_word (Fin.last t)) hS' (pow_pos Fintype.card_pos t) roots A n (by rwa [hS])
  have h2 := bad_le (lab := outWord) (card_word 0) hS' (pow_pos Fintype.card_pos t) targets A n (by rwa [hS])
  rw [hS] at h1 h2
  have hsub : {π : Equiv.Perm (State F (t + 1)) | ¬ (Good capWord roots (transcript A π n) ∧ Good outWord targets (transcript A π n))} ⊆
      {π | ¬ Good capWord roots (transcript A π n)} ∪ {π | ¬ Good outWord targets (transcript A π n)} := by
    intro π hπ
    exact not_and_or.1 hπ
  have h3 := (Set.ncard_le_ncard hsub (Set.toFinite _)).trans (Set.ncard_union_le _ _)
  refine (Nat.mul_le_mul_right _ h3).trans ?_
  rw [Nat.add_mul]
  refine (Nat.add_le_add h1 h2).trans (le_of_eq ?_)
  ring

/-- The capacities of messages of up to `len` words. -/
def lengthRoots (F : Type) [Field F] [DecidableEq F] (len : ℕ) : Finset F :=
  (Finset.range len).image fun l => (((l + 1) * 2 ^ 64 : ℕ) : F)

omit [Fintype F] in
theorem card_lengthRoots (len : ℕ) : (lengthRoots F len).card ≤ len := by
  refine Finset.card_image_le.trans ?_
  rw [Finset.card_range]

omit [Fintype F] in
theorem mem_lengthRoots {len : ℕ} {m : List F} (hm : m ≠ []) (hl : m.length ≤ len) : ((m.length * 2 ^ 64 : ℕ) : F) ∈ lengthRoots F len := by
  have h0 : 0 < m.length := List.length_pos_iff.mpr hm
  exact Finset.mem_image.2 ⟨m.length - 1, Finset.mem_range.2 (by omega), by rw [Nat.sub_add_cancel h0]⟩

/-! ### Theorems -/

/-- **C114.** For every strategy of `n` queries to the permutation and its inverse: the permutations for which the transcript has all
evaluations for two different messages (of up to `len` words, of the same or of different lengths) with the same digest are at most
`2 n (2 n + len)` in `q`. -/
theorem C114_collision {q : ℕ} (hq : Fintype.card F = q) (ht : 0 < t) (A : Strategy (State F (t + 1))) (n : ℕ) (hn : 2 * n ≤ q ^ (t + 1))
    (len : ℕ) (hlen : ∀ l l' : ℕ, l ≤ len → l' ≤ len → ((l * 2 ^ 64 : ℕ) : F) = ((l' * 2 ^ 64 : ℕ) : F) → l = l') :
    {π : Equiv.Perm (State F (t + 1)) | ∃ m m' : List F, m ≠ m' ∧ m ≠ [] ∧ m' ≠ [] ∧ m.length ≤ len ∧ m'.length ≤ len ∧
      Evaluated π (transcript A π n) m ∧ Evaluated π (transcript A π n) m' ∧ constHash t π m = constHash t π m'}.ncard * q ≤
      2 * n * (2 * n + len) * (q ^ (t + 1)).factorial := by
  have key := bad_constant hq A n hn (lengthRoots F len) ∅
  refine (Nat.mul_le_mul_right _ (Set.ncard_le_ncard ?_ (Set.toFinite _))).trans (key.trans (Nat.mul_le_mul_right _
    (Nat.mul_le_mul_left _ (Nat.add_le_add_left (card_lengthRoots len) _))))
  rintro π ⟨m, m', hne, hm, hm', hl, hl', ha, ha', h⟩ ⟨hg, hg'⟩
  obtain ⟨g1, g2⟩ := good_constant ht hg hg' (extends_transcript A π n)
  have r := mem_lengthRoots hm hl
  have r' := mem_lengthRoots hm' hl'
  rcases C113_constant ht (Nat.lt_succ_self t) π m m' hm hm' h with ⟨e1, e2⟩ | ⟨s, hs, s', hs', hne, h⟩ | ⟨s, hs, s', hs', hne, h⟩ |
    ⟨s, hs, h⟩ | ⟨s, hs, h⟩
  · exact hne (blocks_inj ht (by omega) m m' (hlen _ _ hl hl' e1) e2)
  · exact hne (g2 m m' r r' ha ha' s (List.mem_of_getLast? hs) s' (List.mem_of_getLast? hs') (.inr h))
  · exact hne (g2 m m' r r' ha ha' s (List.dropLast_subset _ hs) s' (List.dropLast_subset _ hs') (.inl (h _ last_isCap)))
  · refine (g1 m r ha s (List.dropLast_subset _ hs)).1 ?_
    rw [h _ last_isCap, lengthState, if_pos (by simp)]
    exact r'
  · refine (g1 m' r' ha' s (List.dropLast_subset _ hs)).1 ?_
    rw [h _ last_isCap, lengthState, if_pos (by simp)]
    exact r

/-- **C114**, preimages: the permutations for which a message in the transcript has a digest among given ones. -/
theorem C114_preimage {q : ℕ} (hq : Fintype.card F = q) (ht : 0 < t) (A : Strategy (State F (t + 1))) (n : ℕ) (hn : 2 * n ≤ q ^ (t + 1))
    (len : ℕ) (targets : Finset F) :
    {π : Equiv.Perm (State F (t + 1)) | ∃ m : List F, m ≠ [] ∧ m.length ≤ len ∧ Evaluated π (transcript A π n) m ∧
      ∃ D ∈ targets, constHash t π m = .ok D}.ncard * q ≤ 2 * n * (2 * n + len + targets.card) * (q ^ (t + 1)).factorial := by
  have key := bad_constant hq A n hn (lengthRoots F len) targets
  refine (Nat.mul_le_mul_right _ (Set.ncard_le_ncard ?_ (Set.toFinite _))).trans (key.trans (Nat.mul_le_mul_right _
    (Nat.mul_le_mul_left _ (Nat.add_le_add_right (Nat.add_le_add_left (card_lengthRoots len) _) _))))
  rintro π ⟨m, hm, hl, ha, D, hD, h⟩ ⟨hg, hg'⟩
  obtain ⟨g1, -⟩ := good_constant ht hg hg' (extends_transcript A π n)
  rw [constHash_eq ht _ hm] at h
  have h := Except.ok.inj h
  obtain ⟨n', b, e⟩ := (List.eq_nil_or_concat' _).resolve_left (blocks_ne (T := t + 1) 0 ht hm)
  rw [e, absorb_snoc] at h
  refine (g1 m (mem_lengthRoots hm hl) ha (absorb π (lengthState (t + 1) t F m.length) n' + b) ?_).2 ?_
  · rw [e, inputs_snoc]; simp
  · rwa [h]

omit [Fintype F] [DecidableEq F] in
/-- **C114**, meaning of the transcript: a message all of whose evaluations are in it has the same digest for every permutation with
these values. -/
theorem C114_evaluated (ht : 0 < t) (π π' : Equiv.Perm (State F (t + 1))) (H : List (Entry (State F (t + 1)))) (hx : Extends π H)
    (hx' : Extends π' H) (m : List F) (ha : Evaluated π H m) : constHash t π' m = constHash t π m := by
  by_cases hm : m = []
  · subst hm
    rw [constHash, constHash, C10_constant_length ht (Nat.lt_succ_self t), C10_constant_length ht (Nat.lt_succ_self t)]
    rfl
  rw [constHash_eq ht _ hm, constHash_eq ht _ hm]
  have key : ∀ (bs : List (Fin (t + 1) → F)) (s : State F (t + 1)), (∀ p ∈ inputs π s bs, ∃ e ∈ H, e.2.1 = p) →
      absorb π' s bs = absorb π s bs := by
    intro bs
    induction bs with
    | nil => intro s _; rfl
    | cons b bs ih =>
      intro s hs
      have e : π' (s + b) = π (s + b) := by
        obtain ⟨e, he, hev⟩ := hs (s + b) List.mem_cons_self
        rw [← hev, hx e he, hx' e he]
      rw [absorb, absorb, e]
      exact ih _ fun p hp => hs p (List.mem_cons_of_mem _ hp)
  rw [key _ _ ha]

end

/-- Numbers for a field of about 254 bits. -/
theorem constant_numbers {q n N f k : ℕ} (hq : 2 ^ 254 ≤ q) (hn : n ≤ 2 ^ 120) (hk : k ≤ 2 ^ 64) (hf : 0 < f)
    (h : N * q ≤ 2 * n * (2 * n + k) * f) : N * 2 ^ 11 < f := by
  have h1 : 2 * n * (2 * n + k) * 2 ^ 11 < q := by
    have : 2 * n * (2 * n + k) ≤ 2 * 2 ^ 120 * (2 * 2 ^ 120 + 2 ^ 64) := Nat.mul_le_mul (by omega) (by omega)
    have h3 : 2 * 2 ^ 120 * (2 * 2 ^ 120 + 2 ^ 64) * 2 ^ 11 < 2 ^ 254 := by norm_num
    exact lt_of_le_of_lt (Nat.mul_le_mul_right _ this) (lt_of_lt_of_le h3 hq)
  by_contra hc
  rw [not_lt] at hc
  have h4 : f * q ≤ f * (2 * n * (2 * n + k) * 2 ^ 11) := by
    calc f * q ≤ N * 2 ^ 11 * q := Nat.mul_le_mul_right _ hc
      _ = N * q * 2 ^ 11 := by ring
      _ ≤ 2 * n * (2 * n + k) * f * 2 ^ 11 := Nat.mul_le_mul_right _ h
      _ = _ := by ring
  exact absurd h4 (not_le.2 (Nat.mul_lt_mul_of_pos_left h1 hf))

/-- **C114**, in numbers, over Pallas with width 3: with `2^120` queries, and lengths and targets up to `2^63`, less than one permutation
in `2^11`. -/
theorem C114_pasta (A : Strategy (State Pasta.Fp 3)) (n : ℕ) (hn : n ≤ 2 ^ 120) (len : ℕ) (hl : len < 2 ^ 63) (targets : Finset Pasta.Fp)
    (ht : targets.card < 2 ^ 63) :
    {π : Equiv.Perm (State Pasta.Fp 3) | ∃ m m' : List Pasta.Fp, m ≠ m' ∧ m ≠ [] ∧ m' ≠ [] ∧ m.length ≤ len ∧ m'.length ≤ len ∧
      Evaluated π (transcript A π n) m ∧ Evaluated π (transcript A π n) m' ∧ constHash 2 π m = constHash 2 π m'}.ncard * 2 ^ 11 <
      Fintype.card (Equiv.Perm (State Pasta.Fp 3)) ∧
    {π : Equiv.Perm (State Pasta.Fp 3) | ∃ m : List Pasta.Fp, m ≠ [] ∧ m.length ≤ len ∧ Evaluated π (transcript A π n) m ∧
      ∃ D ∈ targets, constHash 2 π m = .ok D}.ncard * 2 ^ 11 < Fintype.card (Equiv.Perm (State Pasta.Fp 3)) := by
  have hp : 2 ^ 254 ≤ Pasta.p := by norm_num [Pasta.p]
  have h2 : 2 * n ≤ Pasta.p ^ (2 + 1) := by
    have : 2 * 2 ^ 120 ≤ Pasta.p ^ 3 := by norm_num [Pasta.p]
    exact le_trans (Nat.mul_le_mul_left 2 hn) this
  have c : Fintype.card (Equiv.Perm (State Pasta.Fp 3)) = (Pasta.p ^ (2 + 1)).factorial := by
    rw [Fintype.card_perm, Fintype.card_fun, Fintype.card_fin, ZMod.card]
  have hinj : ∀ l l' : ℕ, l ≤ len → l' ≤ len → ((l * 2 ^ 64 : ℕ) : Pasta.Fp) = ((l' * 2 ^ 64 : ℕ) : Pasta.Fp) → l = l' := by
    intro l l' h h' e
    have hb : 2 ^ 128 < Pasta.p := by norm_num [Pasta.p]
    have e3 := (ZMod.natCast_eq_natCast_iff' _ _ Pasta.p).1 e
    rw [Nat.mod_eq_of_lt (lt_trans (by omega) hb), Nat.mod_eq_of_lt (lt_trans (by omega) hb)] at e3
    omega
  rw [c]
  constructor
  · exact constant_numbers hp hn (by omega) (Nat.factorial_pos _) (C114_collision (ZMod.card Pasta.p) (by norm_num) A n h2 len hinj)
  · refine constant_numbers (k := len + targets.card) hp hn (by omega) (Nat.factorial_pos _) ?_
    have := C114_preimage (ZMod.card Pasta.p) (t := 2) (by norm_num) A n h2 len targets
    rwa [Nat.add_assoc] at this

/-! ### Examples -/

/-- The sets are not empty: for the identity, two queries find two messages of one block with the same digest. -/
example : ∃ A : Strategy (State Pasta.Fp 3), (1 : Equiv.Perm (State Pasta.Fp 3)) ∈
    {π : Equiv.Perm (State Pasta.Fp 3) | ∃ m m' : List Pasta.Fp, m ≠ m' ∧ m ≠ [] ∧ m' ≠ [] ∧ m.length ≤ 2 ∧ m'.length ≤ 2 ∧
      Evaluated π (transcript A π 2) m ∧ Evaluated π (transcript A π 2) m' ∧ constHash 2 π m = constHash 2 π m'} := by
  have hb : ∀ a b : Pasta.Fp, inputs (1 : Equiv.Perm (State Pasta.Fp 3)) (lengthState 3 2 Pasta.Fp 2) (blocks 3 0 2 [a, b]) =
      [![a, b, ((2 * 2 ^ 64 : ℕ) : Pasta.Fp)]] := by
    intro a b
    rw [blocks_cons 0 (by norm_num) (by simp)]
    simp only [List.drop_succ_cons, List.drop_nil, blocks_nil, inputs]
    congr 1
    funext i
    fin_cases i <;> simp [lengthState]
  refine ⟨fun H => (true, if H = [] then ![1, 2, ((2 * 2 ^ 64 : ℕ) : Pasta.Fp)] else ![1, 3, ((2 * 2 ^ 64 : ℕ) : Pasta.Fp)]), [1, 2], [1, 3],
    ?_, by simp, by simp, by simp, by simp, ?_, ?_, ?_⟩
  · intro h
    have h := (List.cons.inj (List.cons.inj h).2).1
    have h' : ((2 : ℕ) : Pasta.Fp) = ((3 : ℕ) : Pasta.Fp) := by exact_mod_cast h
    have := (ZMod.natCast_eq_natCast_iff' 2 3 Pasta.p).1 h'
    rw [Nat.mod_eq_of_lt (by norm_num [Pasta.p]), Nat.mod_eq_of_lt (by norm_num [Pasta.p])] at this
    omega
  · intro s hs
    have hs := (List.mem_singleton.1 ((hb 1 2) ▸ hs : s ∈ [![1, 2, ((2 * 2 ^ 64 : ℕ) : Pasta.Fp)]]))
    subst hs
    exact ⟨_, List.mem_cons_of_mem _ List.mem_cons_self, rfl⟩
  · intro s hs
    have hs := (List.mem_singleton.1 ((hb 1 3) ▸ hs : s ∈ [![1, 3, ((2 * 2 ^ 64 : ℕ) : Pasta.Fp)]]))
    subst hs
    exact ⟨_, List.mem_cons_self, rfl⟩
  · have hv : ∀ a b : Pasta.Fp, constHash 2 (1 : Equiv.Perm (State Pasta.Fp 3)) [a, b] = .ok a := by
      intro a b
      rw [constHash_eq (by norm_num) _ (by simp), blocks_cons 0 (by norm_num) (by simp)]
      simp only [List.drop_succ_cons, List.drop_nil, blocks_nil, absorb]
      simp [lengthState]
    rw [hv, hv]

end Props
