import Verif.Props.Pasta
import Verif.Props.Gadget

/-!
# Collisions of constant-length hashing: C113

`ConstantLength` and `ConstantLengthIden3` of `/repo/poseidon-base/src/primitives.rs`, for any width, rate and permutation. C54 is about
messages of any length hashed with `hash_msg`.
-/

set_option linter.unusedVariables false
set_option linter.unusedSectionVars false

namespace Props
open Base Halo2 Circuit

namespace Blocks
variable {F : Type} [Field F] {T : ℕ}

/-! ### Specification -/

/-- The blocks of a message: `rate` words each, at the words `off, off + 1, ..` of the state, the last one completed with zeros. -/
def blocks (T off rate : ℕ) (m : List F) : List (Fin T → F) :=
  if h : m = [] ∨ rate = 0 then []
  else (fun i => if off ≤ i.val then (m.take rate).getD (i.val - off) 0 else 0) :: blocks T off rate (m.drop rate)
termination_by m.length
decreasing_by
  have : m.length ≠ 0 := by simpa using fun h' => h (Or.inl h')
  simp only [List.length_drop]; omega

/-- The inputs on which the permutation is evaluated, from the state `s`. -/
def inputs (π : (Fin T → F) → Fin T → F) : (Fin T → F) → List (Fin T → F) → List (Fin T → F)
  | _, [] => []
  | s, b :: m => (s + b) :: inputs π (π (s + b)) m

/-- The words of the state that no block is added to. -/
def IsCap (off rate i : ℕ) : Prop := i < off ∨ off + rate ≤ i

/-- Two different inputs with the same word 0 of the image. -/
def SameDigest [NeZero T] (π : (Fin T → F) → Fin T → F) (q q' : Fin T → F) : Prop := q ≠ q' ∧ π q 0 = π q' 0

/-- Two different inputs with the same capacity words of the image. -/
def SameCap (off rate : ℕ) (π : (Fin T → F) → Fin T → F) (q q' : Fin T → F) : Prop :=
  q ≠ q' ∧ ∀ i : Fin T, IsCap off rate i → π q i = π q' i

/-- The image has the capacity words of `s`. -/
def Hits (off rate : ℕ) (π : (Fin T → F) → Fin T → F) (q s : Fin T → F) : Prop := ∀ i : Fin T, IsCap off rate i → π q i = s i

/-- What two computations, from `s` with blocks `m` and from `s'` with `m'`, can show of the permutation. -/
def Weak [NeZero T] (off rate : ℕ) (π : (Fin T → F) → Fin T → F) (s s' : Fin T → F) (m m' : List (Fin T → F)) : Prop :=
  (∃ q ∈ (inputs π s m).getLast?, ∃ q' ∈ (inputs π s' m').getLast?, SameDigest π q q') ∨
  (∃ q ∈ (inputs π s m).dropLast, ∃ q' ∈ (inputs π s' m').dropLast, SameCap off rate π q q') ∨
  (∃ q ∈ (inputs π s m).dropLast, Hits off rate π q s') ∨ ∃ q' ∈ (inputs π s' m').dropLast, Hits off rate π q' s

/-- The same for messages of one length: the inputs are at the same place. -/
def WeakAt [NeZero T] (off rate : ℕ) (π : (Fin T → F) → Fin T → F) (s : Fin T → F) (m m' : List (Fin T → F)) : Prop :=
  (∃ p ∈ ((inputs π s m).zip (inputs π s m')).getLast?, SameDigest π p.1 p.2) ∨
  ∃ p ∈ ((inputs π s m).zip (inputs π s m')).dropLast, SameCap off rate π p.1 p.2

/-! ### Lemmas -/

/-- The sponge on blocks. -/
def absorb (π : (Fin T → F) → Fin T → F) : (Fin T → F) → List (Fin T → F) → Fin T → F
  | s, [] => s
  | s, b :: m => absorb π (π (s + b)) m

theorem blocks_nil (off rate : ℕ) : blocks T off rate ([] : List F) = [] := by
  rw [blocks]; simp

theorem blocks_cons (off : ℕ) {rate : ℕ} (hr : 0 < rate) {m : List F} (h : m ≠ []) :
    blocks T off rate m =
      (fun i => if off ≤ i.val then (m.take rate).getD (i.val - off) 0 else 0) :: blocks T off rate (m.drop rate) := by
  rw [blocks, dif_neg (by simp [h]; omega)]

theorem absorb_blocks [NeZero T] (π : (Fin T → F) → Fin T → F) (off : ℕ) {rate : ℕ} (hr : 0 < rate) (m : List F) (s : Fin T → F) :
    Spec.absorbBlocks π off rate m s = absorb π s (blocks T off rate m) := by
  induction hn : m.length using Nat.strong_induction_on generalizing m s with
  | _ n ih =>
    by_cases hm : m = []
    · subst hm
      rw [absorbBlocks_nil, blocks_nil, absorb]
    · have h0 : 0 < m.length := List.length_pos_iff.mpr hm
      rw [absorbBlocks_cons π off rate m s hm hr, blocks_cons off hr hm, absorb,
        ih (m.drop rate).length (by rw [List.length_drop]; omega) _ _ rfl]
      congr 2
      funext i
      simp only [Spec.addBlock, Pi.add_apply]
      split
      · rfl
      · rw [add_zero]

theorem blocks_cap (off : ℕ) {rate : ℕ} (hr : 0 < rate) (m : List F) :
    ∀ b ∈ blocks T off rate m, ∀ i : Fin T, IsCap off rate i → b i = 0 := by
  induction hn : m.length using Nat.strong_induction_on generalizing m with
  | _ n ih =>
    by_cases hm : m = []
    · subst hm
      simp [blocks_nil]
    · have h0 : 0 < m.length := List.length_pos_iff.mpr hm
      rw [blocks_cons off hr hm]
      intro b hb i hi
      rcases List.mem_cons.mp hb with rfl | hb
      · dsimp only
        split
        · have : off + rate ≤ i.val := by rcases hi with h | h <;> omega
          exact List.getD_eq_default _ _ (by rw [List.length_take]; omega)
        · rfl
      · exact ih _ (by rw [List.length_drop]; omega) (m.drop rate) rfl b hb i hi

theorem blocks_ne (off : ℕ) {rate : ℕ} (hr : 0 < rate) {m : List F} (h : m ≠ []) : blocks T off rate m ≠ [] := by
  rw [blocks_cons off hr h]; simp

theorem blocks_length (off : ℕ) {rate : ℕ} (hr : 0 < rate) (m m' : List F) (hl : m.length = m'.length) :
    (blocks T off rate m).length = (blocks T off rate m').length := by
  induction hn : m.length using Nat.strong_induction_on generalizing m m' with
  | _ n ih =>
    by_cases hm : m = []
    · subst hm
      obtain rfl := List.length_eq_zero_iff.mp hl.symm
      rfl
    · have h0 : 0 < m.length := List.length_pos_iff.mpr hm
      rw [blocks_cons off hr hm, blocks_cons off hr (m := m') (List.ne_nil_of_length_pos (by omega)), List.length_cons, List.length_cons,
        ih _ (by rw [List.length_drop]; omega) (m.drop rate) (m'.drop rate) (by rw [List.length_drop, List.length_drop, hl]) rfl]

theorem blocks_inj {off rate : ℕ} (hr : 0 < rate) (hT : off + rate ≤ T) (m m' : List F) (hl : m.length = m'.length)
    (h : blocks T off rate m = blocks T off rate m') : m = m' := by
  induction hn : m.length using Nat.strong_induction_on generalizing m m' with
  | _ n ih =>
    by_cases hm : m = []
    · subst hm
      exact (List.length_eq_zero_iff.mp hl.symm).symm
    · have h0 : 0 < m.length := List.length_pos_iff.mpr hm
      rw [blocks_cons off hr hm, blocks_cons off hr (m := m') (List.ne_nil_of_length_pos (by omega))] at h
      obtain ⟨h1, h2⟩ := List.cons.inj h
      have e2 := ih _ (by rw [List.length_drop]; omega) (m.drop rate) (m'.drop rate) (by rw [List.length_drop, List.length_drop, hl])
        h2 rfl
      have e1 : m.take rate = m'.take rate := by
        refine List.ext_getElem (by rw [List.length_take, List.length_take, hl]) fun i hi hi' => ?_
        have hir : i < rate := by rw [List.length_take] at hi; omega
        have := congrFun h1 ⟨off + i, by omega⟩
        dsimp only at this
        rw [if_pos (by omega), if_pos (by omega), show off + i - off = i by omega, List.getD_eq_getElem _ _ hi,
          List.getD_eq_getElem _ _ hi'] at this
        exact this
      rw [← List.take_append_drop rate m, ← List.take_append_drop rate m', e1, e2]

theorem absorb_snoc (π : (Fin T → F) → Fin T → F) (m : List (Fin T → F)) (b s : Fin T → F) :
    absorb π s (m ++ [b]) = π (absorb π s m + b) := by
  induction m generalizing s with
  | nil => rfl
  | cons c m ih => exact ih _

theorem inputs_snoc (π : (Fin T → F) → Fin T → F) (m : List (Fin T → F)) (b s : Fin T → F) :
    inputs π s (m ++ [b]) = inputs π s m ++ [absorb π s m + b] := by
  induction m generalizing s with
  | nil => rfl
  | cons c m ih =>
    rw [List.cons_append]
    show _ :: inputs π _ (m ++ [b]) = _ :: (inputs π _ m ++ _)
    rw [ih]
    rfl

theorem inputs_length (π : (Fin T → F) → Fin T → F) (m : List (Fin T → F)) (s : Fin T → F) : (inputs π s m).length = m.length := by
  induction m generalizing s with
  | nil => rfl
  | cons c m ih => rw [inputs, List.length_cons, List.length_cons, ih]

/-- The inner states. -/
def Inner (off rate : ℕ) (π : (Fin T → F) → Fin T → F) (s s' : Fin T → F) (m m' : List (Fin T → F)) : Prop :=
  (∃ q ∈ inputs π s m, ∃ q' ∈ inputs π s' m', SameCap off rate π q q') ∨
  (∃ q ∈ inputs π s m, Hits off rate π q s') ∨ ∃ q' ∈ inputs π s' m', Hits off rate π q' s

theorem Inner.snoc {off rate : ℕ} {π : (Fin T → F) → Fin T → F} {s s' : Fin T → F} {m m' : List (Fin T → F)} (b b' : Fin T → F)
    (h : Inner off rate π s s' m m') : Inner off rate π s s' (m ++ [b]) (m' ++ [b']) := by
  unfold Inner
  simp only [inputs_snoc, List.mem_append]
  rcases h with ⟨q, h1, q', h2, h⟩ | ⟨q, h1, h⟩ | ⟨q, h1, h⟩
  · exact .inl ⟨q, .inl h1, q', .inl h2, h⟩
  · exact .inr (.inl ⟨q, .inl h1, h⟩)
  · exact .inr (.inr ⟨q, .inl h1, h⟩)

variable {off rate : ℕ} {π : (Fin T → F) → Fin T → F}

theorem cap_of_add {a a' b b' : Fin T → F} (hb : ∀ i : Fin T, IsCap off rate i → b i = 0) (hb' : ∀ i : Fin T, IsCap off rate i → b' i = 0)
    (h : a + b = a' + b') (i : Fin T) (hi : IsCap off rate i) : a i = a' i := by
  have := congrFun h i
  simpa [hb i hi, hb' i hi] using this

/-- Equal capacity words go back to the start. -/
theorem inner {s s' : Fin T → F} (hs : ∀ i : Fin T, ¬ IsCap off rate i → s i = s' i) (m m' : List (Fin T → F))
    (hm : ∀ b ∈ m, ∀ i : Fin T, IsCap off rate i → b i = 0) (hm' : ∀ b ∈ m', ∀ i : Fin T, IsCap off rate i → b i = 0)
    (h : ∀ i : Fin T, IsCap off rate i → absorb π s m i = absorb π s' m' i) : (s = s' ∧ m = m') ∨ Inner off rate π s s' m m' := by
  induction m using List.reverseRecOn generalizing m' with
  | nil =>
    rcases List.eq_nil_or_concat' m' with rfl | ⟨n', b', rfl⟩
    · refine .inl ⟨funext fun i => ?_, rfl⟩
      by_cases hi : IsCap off rate i
      · exact h i hi
      · exact hs i hi
    · rw [absorb_snoc] at h
      exact .inr (.inr (.inr ⟨_, by rw [inputs_snoc]; simp, fun i hi => (h i hi).symm⟩))
  | append_singleton n b ih =>
    rcases List.eq_nil_or_concat' m' with rfl | ⟨n', b', rfl⟩
    · rw [absorb_snoc] at h
      exact .inr (.inr (.inl ⟨_, by rw [inputs_snoc]; simp, fun i hi => h i hi⟩))
    · rw [absorb_snoc, absorb_snoc] at h
      by_cases hq : absorb π s n + b = absorb π s' n' + b'
      · rcases ih n' (fun c hc => hm c (by simp [hc])) (fun c hc => hm' c (by simp [hc]))
          (cap_of_add (hm b (by simp)) (hm' b' (by simp)) hq) with ⟨rfl, rfl⟩ | hw
        · exact .inl ⟨rfl, by rw [add_left_cancel hq]⟩
        · exact .inr (hw.snoc b b')
      · exact .inr (.inl ⟨_, by rw [inputs_snoc]; simp, _, by rw [inputs_snoc]; simp, hq, h⟩)

theorem reduction [NeZero T] {s s' : Fin T → F} (hs : ∀ i : Fin T, ¬ IsCap off rate i → s i = s' i) (m m' : List (Fin T → F)) (h0 : m ≠ [])
    (h0' : m' ≠ []) (hm : ∀ b ∈ m, ∀ i : Fin T, IsCap off rate i → b i = 0) (hm' : ∀ b ∈ m', ∀ i : Fin T, IsCap off rate i → b i = 0)
    (h : absorb π s m 0 = absorb π s' m' 0) : (s = s' ∧ m = m') ∨ Weak off rate π s s' m m' := by
  obtain ⟨n, b, rfl⟩ := (List.eq_nil_or_concat' m).resolve_left h0
  obtain ⟨n', b', rfl⟩ := (List.eq_nil_or_concat' m').resolve_left h0'
  rw [absorb_snoc, absorb_snoc] at h
  by_cases hq : absorb π s n + b = absorb π s' n' + b'
  · rcases inner hs n n' (fun c hc => hm c (by simp [hc])) (fun c hc => hm' c (by simp [hc]))
      (cap_of_add (hm b (by simp)) (hm' b' (by simp)) hq) with ⟨rfl, rfl⟩ | hw
    · exact .inl ⟨rfl, by rw [add_left_cancel hq]⟩
    · right
      right
      rw [inputs_snoc, inputs_snoc, List.dropLast_concat, List.dropLast_concat]
      exact hw
  · refine .inr (.inl ⟨_, ?_, _, ?_, hq, h⟩)
    · rw [inputs_snoc, List.getLast?_concat]; rfl
    · rw [inputs_snoc, List.getLast?_concat]; rfl

theorem inner_at {s : Fin T → F} (m m' : List (Fin T → F)) (hl : m.length = m'.length)
    (hm : ∀ b ∈ m, ∀ i : Fin T, IsCap off rate i → b i = 0) (hm' : ∀ b ∈ m', ∀ i : Fin T, IsCap off rate i → b i = 0)
    (h : ∀ i : Fin T, IsCap off rate i → absorb π s m i = absorb π s m' i) :
    m = m' ∨ ∃ p ∈ (inputs π s m).zip (inputs π s m'), SameCap off rate π p.1 p.2 := by
  induction m using List.reverseRecOn generalizing m' with
  | nil => exact .inl (List.length_eq_zero_iff.mp hl.symm).symm
  | append_singleton n b ih =>
    rcases List.eq_nil_or_concat' m' with rfl | ⟨n', b', rfl⟩
    · simp at hl
    · have hl' : n.length = n'.length := by simpa using hl
      rw [absorb_snoc, absorb_snoc] at h
      rw [inputs_snoc, inputs_snoc, List.zip_append (by rw [inputs_length, inputs_length, hl'])]
      by_cases hq : absorb π s n + b = absorb π s n' + b'
      · rcases ih n' hl' (fun c hc => hm c (by simp [hc])) (fun c hc => hm' c (by simp [hc]))
          (cap_of_add (hm b (by simp)) (hm' b' (by simp)) hq) with rfl | ⟨p, hp, hw⟩
        · exact .inl (by rw [add_left_cancel hq])
        · exact .inr ⟨p, List.mem_append_left _ hp, hw⟩
      · exact .inr ⟨_, List.mem_append_right _ (by rw [List.zip_cons_cons]; exact List.mem_cons_self), hq, h⟩

theorem reduction_at [NeZero T] {s : Fin T → F} (m m' : List (Fin T → F)) (hl : m.length = m'.length)
    (hm : ∀ b ∈ m, ∀ i : Fin T, IsCap off rate i → b i = 0) (hm' : ∀ b ∈ m', ∀ i : Fin T, IsCap off rate i → b i = 0)
    (h : absorb π s m 0 = absorb π s m' 0) : m = m' ∨ WeakAt off rate π s m m' := by
  rcases List.eq_nil_or_concat' m with rfl | ⟨n, b, rfl⟩
  · exact .inl (List.length_eq_zero_iff.mp hl.symm).symm
  rcases List.eq_nil_or_concat' m' with rfl | ⟨n', b', rfl⟩
  · simp at hl
  have hl' : n.length = n'.length := by simpa using hl
  rw [absorb_snoc, absorb_snoc] at h
  unfold WeakAt
  rw [inputs_snoc, inputs_snoc, List.zip_append (by rw [inputs_length, inputs_length, hl'])]
  by_cases hq : absorb π s n + b = absorb π s n' + b'
  · rcases inner_at n n' hl' (fun c hc => hm c (by simp [hc])) (fun c hc => hm' c (by simp [hc]))
      (cap_of_add (hm b (by simp)) (hm' b' (by simp)) hq) with rfl | ⟨p, hp, hw⟩
    · exact .inl (by rw [add_left_cancel hq])
    · refine .inr (.inr ⟨p, ?_, hw⟩)
      rw [List.zip_cons_cons, List.zip_nil_left, List.dropLast_concat]
      exact hp
  · refine .inr (.inl ⟨(absorb π s n + b, absorb π s n' + b'), ?_, hq, h⟩)
    rw [List.zip_cons_cons, List.zip_nil_left, List.getLast?_concat]
    rfl

end Blocks

open Blocks

variable {F : Type} [Field F] {T RATE : ℕ} [NeZero T]

/-- The first state of `ConstantLength`: the length times `2^64` in word `RATE`. -/
def lengthState (T RATE : ℕ) (F : Type) [Field F] (L : ℕ) : Fin T → F := fun i => if i.val = RATE then ((L * 2 ^ 64 : ℕ) : F) else 0

/-! ### Theorems -/

/-- **C113.** If two messages, of any lengths, have the same digest under `ConstantLength`, then they have the same blocks and start from
the same state, or the two computations show a weakness of the permutation. -/
theorem C113_constant (h0 : 0 < RATE) (hT : RATE < T) (π : State F T → State F T) (m m' : List F) (hm : m ≠ []) (hm' : m' ≠ [])
    (h : Hash.hashConst π (Hash.init (T := T) (RATE := RATE) (.constantLength m.length)) m.get =
      Hash.hashConst π (Hash.init (T := T) (RATE := RATE) (.constantLength m'.length)) m'.get) :
    (((m.length * 2 ^ 64 : ℕ) : F) = ((m'.length * 2 ^ 64 : ℕ) : F) ∧ blocks T 0 RATE m = blocks T 0 RATE m') ∨
      Weak 0 RATE π (lengthState T RATE F m.length) (lengthState T RATE F m'.length) (blocks T 0 RATE m) (blocks T 0 RATE m') := by
  rw [C10_constant_length h0 hT, C10_constant_length h0 hT, if_neg (by simpa using hm), if_neg (by simpa using hm'), List.ofFn_get,
    List.ofFn_get] at h
  have h := Except.ok.inj h
  rw [absorb_blocks π 0 h0, absorb_blocks π 0 h0] at h
  have hs : ∀ i : Fin T, ¬ IsCap 0 RATE i → lengthState T RATE F m.length i = lengthState T RATE F m'.length i := by
    intro i hi
    have hi' : ¬ (i.val < 0 ∨ 0 + RATE ≤ i.val) := hi
    unfold lengthState
    rw [if_neg (by omega), if_neg (by omega)]
  rcases reduction (off := 0) (rate := RATE) hs _ _ (blocks_ne 0 h0 hm) (blocks_ne 0 h0 hm') (blocks_cap 0 h0 m)
    (blocks_cap 0 h0 m') h with ⟨e1, e2⟩ | hw
  · refine .inl ⟨?_, e2⟩
    have := congrFun e1 ⟨RATE, hT⟩
    simpa [lengthState] using this
  · exact .inr hw

/-- **C113**, one length: the messages are equal, or at one place of the two computations the inputs of the permutation are different and
the images agree: in the digest at the last place, in all capacity words before it. -/
theorem C113_same_length (h0 : 0 < RATE) (hT : RATE < T) (π : State F T → State F T) {m m' : List F} (hl : m.length = m'.length)
    (hm : m ≠ []) (h : Hash.hashConst π (Hash.init (T := T) (RATE := RATE) (.constantLength m.length)) m.get =
      Hash.hashConst π (Hash.init (T := T) (RATE := RATE) (.constantLength m'.length)) m'.get) :
    m = m' ∨ WeakAt 0 RATE π (lengthState T RATE F m.length) (blocks T 0 RATE m) (blocks T 0 RATE m') := by
  have h1 : 0 < m.length := List.length_pos_iff.mpr hm
  rw [C10_constant_length h0 hT, C10_constant_length h0 hT, if_neg (by omega), if_neg (by omega), List.ofFn_get, List.ofFn_get] at h
  have h := Except.ok.inj h
  rw [absorb_blocks π 0 h0, absorb_blocks π 0 h0, ← hl] at h
  rcases reduction_at (off := 0) (rate := RATE) _ _ (blocks_length 0 h0 m m' hl) (blocks_cap 0 h0 m) (blocks_cap 0 h0 m') h with e | hw
  · exact .inl (blocks_inj h0 (by omega) m m' hl e)
  · exact .inr hw

/-- **C113**, `ConstantLengthIden3`: the same with a domain in word 0. -/
theorem C113_iden3 (h0 : 0 < RATE) (hT : RATE < T) (π : State F T → State F T) (m m' : List F) (hm : m ≠ []) (hm' : m' ≠ []) (d d' : F)
    (h : Hash.hashIden3 π (Hash.init (T := T) (RATE := RATE) (.constantLengthIden3 m.length)) m.get d =
      Hash.hashIden3 π (Hash.init (T := T) (RATE := RATE) (.constantLengthIden3 m'.length)) m'.get d') :
    (d = d' ∧ blocks T (T - RATE) RATE m = blocks T (T - RATE) RATE m') ∨
      Weak (T - RATE) RATE π (fun i => if i = 0 then d else 0) (fun i => if i = 0 then d' else 0) (blocks T (T - RATE) RATE m)
        (blocks T (T - RATE) RATE m') := by
  rw [C11_constant_length_iden3 h0 hT.le, C11_constant_length_iden3 h0 hT.le, if_neg (by simpa using hm), if_neg (by simpa using hm'),
    List.ofFn_get, List.ofFn_get] at h
  have h := Except.ok.inj h
  rw [absorb_blocks π _ h0, absorb_blocks π _ h0] at h
  have hs : ∀ i : Fin T, ¬ IsCap (T - RATE) RATE i → (if i = 0 then d else 0) = if i = 0 then d' else 0 := by
    intro i hi
    have hi' : ¬ (i.val < T - RATE ∨ T - RATE + RATE ≤ i.val) := hi
    have hne : i ≠ 0 := by
      rintro rfl
      have : ((0 : Fin T) : ℕ) = 0 := rfl
      omega
    rw [if_neg hne, if_neg hne]
  rcases reduction (off := T - RATE) (rate := RATE) hs _ _ (blocks_ne _ h0 hm) (blocks_ne _ h0 hm') (blocks_cap _ h0 m)
    (blocks_cap _ h0 m') h with ⟨e1, e2⟩ | hw
  · refine .inl ⟨?_, e2⟩
    have := congrFun e1 0
    simpa using this
  · exact .inr hw

/-- **C113**, the Pallas instance, in both builds: messages of fewer than `2^64` words with one digest are equal, or the computations show
a weakness of textbook Poseidon. -/
theorem C113_pasta (short : Bool) (m m' : List Pasta.Fp) (hm : m ≠ []) (hm' : m' ≠ []) (hl : m.length < 2 ^ 64) (hl' : m'.length < 2 ^ 64)
    (h : Pasta.hashFp short m.get = Pasta.hashFp short m'.get) :
    m = m' ∨ Weak 0 2 (Spec.poseidon (fun x => x ^ 5) (Matrix.of Pasta.mds) 4 56 (fun i => Pasta.roundConstants.getD i 0))
      ![0, 0, ((m.length * 2 ^ 64 : ℕ) : Pasta.Fp)] ![0, 0, ((m'.length * 2 ^ 64 : ℕ) : Pasta.Fp)] (blocks 3 0 2 m) (blocks 3 0 2 m') := by
  rw [C50_pasta_hash short (by simpa using hm), C50_pasta_hash short (by simpa using hm'), List.ofFn_get, List.ofFn_get] at h
  have h := Except.ok.inj h
  rw [absorb_blocks _ 0 (by norm_num), absorb_blocks _ 0 (by norm_num)] at h
  have hs : ∀ i : Fin 3, ¬ IsCap 0 2 i → (![0, 0, ((m.length * 2 ^ 64 : ℕ) : Pasta.Fp)] : Fin 3 → Pasta.Fp) i =
      (![0, 0, ((m'.length * 2 ^ 64 : ℕ) : Pasta.Fp)] : Fin 3 → Pasta.Fp) i := by
    intro i hi
    have hi' : ¬ (i.val < 0 ∨ 0 + 2 ≤ i.val) := hi
    have hi2 : i = 0 ∨ i = 1 := by
      have : i.val = 0 ∨ i.val = 1 := by omega
      rcases this with e | e
      · exact .inl (Fin.ext e)
      · exact .inr (Fin.ext e)
    rcases hi2 with e | e <;> rw [e] <;> simp
  rcases reduction (off := 0) (rate := 2) hs _ _ (blocks_ne 0 (by norm_num) hm) (blocks_ne 0 (by norm_num) hm')
    (blocks_cap 0 (by norm_num) m) (blocks_cap 0 (by norm_num) m') h with ⟨e1, e2⟩ | hw
  · left
    have e : ((m.length * 2 ^ 64 : ℕ) : Pasta.Fp) = ((m'.length * 2 ^ 64 : ℕ) : Pasta.Fp) := congrFun e1 2
    have hp : 2 ^ 128 < Pasta.p := by norm_num [Pasta.p]
    have e3 := (ZMod.natCast_eq_natCast_iff' _ _ Pasta.p).1 e
    rw [Nat.mod_eq_of_lt (lt_trans (by omega) hp), Nat.mod_eq_of_lt (lt_trans (by omega) hp)] at e3
    exact blocks_inj (by norm_num) (by norm_num) m m' (by omega) e2
  · exact .inr hw

theorem native_same {t : ℕ} (ht : 0 < t) (fr pr : ℕ) (mds : Base.Mds F (t + 1)) (rc : List (Base.State F (t + 1))) {m m' : List F}
    (hl : m.length = m'.length) (hm : m ≠ []) (h : nativeConstHash fr pr mds rc m = nativeConstHash fr pr mds rc m') :
    m = m' ∨ WeakAt 0 t (Base.permute ⟨fr, pr, Base.sboxPow⟩ mds rc) (lengthState (t + 1) t F m.length) (blocks (t + 1) 0 t m)
      (blocks (t + 1) 0 t m') :=
  C113_same_length ht (Nat.lt_succ_self t) _ hl hm h

/-- **C113**, in the circuit: if two calls of the gadget have outputs that are equal in an accepted grid, and the lengths are the same, then
the words in the grid are the same, or they show a weakness. -/
theorem C113_gadget {t : ℕ} (fr pr : ℕ) (mds mi : Base.Mds F (t + 1)) (rc : List (Base.State F (t + 1)))
    (hrc : fr + pr ≤ rc.length) (hinv : Matrix.of mds * Matrix.of mi = 1)
    (cols : Pow5.Cols t) (hd : cols.Distinct) (cs cs' : CS F) (c : Pow5.Config F t)
    (hcfg : Pow5.configureChecked (gadgetParams fr pr mds mi rc) cols cs = .ok (c, cs'))
    (L : Layouter F) (kc : ℕ) (hconst : L.constCol = some kc) (hL : L.Good (Gadget.OwnCols cols kc))
    (prog : List (List (ACell F) → List (ACell F))) (hne : ∀ f ∈ prog, ∀ outs, f outs ≠ []) :
    ∃ outs L' log, hashAll (gadgetParams fr pr mds mi rc) c L [] prog = .ok (outs, L') ∧ L'.ops = L.ops ++ log ∧
      outs.length = prog.length ∧
      ∀ (post : List (Op F)) (g : Grid F), Later cols kc L' post →
        InstanceOf g (L'.ops ++ post) {k | RCol.fixed k ∈ Gadget.OwnCols cols kc} {k | cs.numSelectors ≤ k ∧ k < cs'.numSelectors} →
        Fits log g.n → (∀ p ∈ cs'.gates, p.Holds g) →
        ∀ (i j : ℕ) (f f' : List (ACell F) → List (ACell F)) (x x' : ACell F), prog[i]? = some f → outs[i]? = some x →
          prog[j]? = some f' → outs[j]? = some x' → (f (outs.take i)).length = (f' (outs.take j)).length →
          g.cell x.cell = g.cell x'.cell →
          ((f (outs.take i)).map fun a => g.cell a.cell) = ((f' (outs.take j)).map fun a => g.cell a.cell) ∨
          WeakAt 0 t (Base.permute ⟨fr, pr, Base.sboxPow⟩ mds rc) (lengthState (t + 1) t F (f (outs.take i)).length)
            (blocks (t + 1) 0 t ((f (outs.take i)).map fun a => g.cell a.cell))
            (blocks (t + 1) 0 t ((f' (outs.take j)).map fun a => g.cell a.cell)) := by
  obtain ⟨-, ht, -, -⟩ := configure_ok hcfg
  obtain ⟨outs, L', log, e1, e2, e3, -, -, key⟩ := C45_gadget fr pr mds mi rc hrc hinv cols hd cs cs' c hcfg L kc hconst hL prog hne
  refine ⟨outs, L', log, e1, e2, e3, fun post g hpost hg hfit hgates i j f f' x x' hf hx hf' hx' hlen hout => ?_⟩
  have h1 := (key post g hpost).1 hg hfit hgates i f x hf hx
  have h2 := (key post g hpost).1 hg hfit hgates j f' x' hf' hx'
  rw [← hout, ← h1] at h2
  have hn : f (outs.take i) ≠ [] := hne f (List.mem_of_getElem? hf) _
  have := native_same ht fr pr mds rc (by rw [List.length_map, List.length_map, hlen]) (by simpa using hn) h2.symm
  rwa [List.length_map] at this

/-! ### Examples -/

/-- A bad permutation, one that drops everything: messages of two and of three words collide, and the computations show it. -/
example : Weak 0 2 (fun _ : Fin 3 → ℚ => 0) (lengthState 3 2 ℚ 2) (lengthState 3 2 ℚ 3) (blocks 3 0 2 [1, 2]) (blocks 3 0 2 [1, 2, 3]) := by
  rcases C113_constant (T := 3) (RATE := 2) (F := ℚ) (by norm_num) (by norm_num) (fun _ => 0) [1, 2] [1, 2, 3] (by simp) (by simp) (by
    rw [C10_constant_length (by norm_num) (by norm_num), C10_constant_length (by norm_num) (by norm_num), if_neg (by simp),
      if_neg (by simp), List.ofFn_get, List.ofFn_get]
    simp [absorbBlocks_cons, absorbBlocks_nil]) with ⟨h, -⟩ | h
  · norm_num at h
  · exact h

/-- Messages of three words. -/
example : WeakAt 0 2 (fun _ : Fin 3 → ℚ => 0) (lengthState 3 2 ℚ 3) (blocks 3 0 2 [1, 2, 3]) (blocks 3 0 2 [1, 2, 4]) := by
  rcases C113_same_length (T := 3) (RATE := 2) (F := ℚ) (m := [1, 2, 3]) (m' := [1, 2, 4]) (by norm_num) (by norm_num) (fun _ => 0) rfl
    (by simp) (by
    rw [C10_constant_length (by norm_num) (by norm_num), C10_constant_length (by norm_num) (by norm_num), if_neg (by simp),
      if_neg (by simp), List.ofFn_get, List.ofFn_get]
    simp [absorbBlocks_cons, absorbBlocks_nil]) with h | h
  · norm_num at h
  · exact h

/-- Two domains. -/
example : Weak 1 2 (fun _ : Fin 3 → ℚ => 0) (fun i => if i = 0 then 7 else 0) (fun i => if i = 0 then 8 else 0) (blocks 3 1 2 [1, 2])
    (blocks 3 1 2 [1, 2]) := by
  rcases C113_iden3 (T := 3) (RATE := 2) (F := ℚ) (by norm_num) (by norm_num) (fun _ => 0) [1, 2] [1, 2] (by simp) (by simp) 7 8 (by
    rw [C11_constant_length_iden3 (by norm_num) (by norm_num), C11_constant_length_iden3 (by norm_num) (by norm_num), if_neg (by simp),
      if_neg (by simp), List.ofFn_get]
    simp [absorbBlocks_cons, absorbBlocks_nil]) with ⟨h, -⟩ | h
  · norm_num at h
  · exact h

/-- The blocks are those of the code: three words at rate 2 are two blocks, the second one completed with a zero. -/
example : blocks 3 0 2 ([1, 2, 3] : List ℚ) = [![1, 2, 0], ![3, 0, 0]] := by
  rw [blocks_cons 0 (by norm_num) (by simp), blocks_cons 0 (by norm_num) (by simp)]
  simp only [List.drop_succ_cons, List.drop_zero, List.drop_nil, blocks_nil]
  congr 1
  · funext i
    fin_cases i <;> simp
  · congr 1
    funext i
    fin_cases i <;> simp

/-- Over Pallas: a message and the one with a zero word more. -/
example (h : Pasta.hashFp true ([5] : List Pasta.Fp).get = Pasta.hashFp true ([5, 0] : List Pasta.Fp).get) :
    Weak 0 2 (Spec.poseidon (fun x => x ^ 5) (Matrix.of Pasta.mds) 4 56 (fun i => Pasta.roundConstants.getD i 0))
      ![0, 0, ((1 * 2 ^ 64 : ℕ) : Pasta.Fp)] ![0, 0, ((2 * 2 ^ 64 : ℕ) : Pasta.Fp)] (blocks 3 0 2 [5]) (blocks 3 0 2 [5, 0]) := by
  rcases C113_pasta true [5] [5, 0] (by simp) (by simp) (by norm_num) (by norm_num) h with e | e
  · simp at e
  · exact e

/-- The circuit of the example of C45 with two messages `[a, b, a]` and `[b, b, a]`. (That its grids are accepted is shown there.) -/
example : ∃ c cs', Pow5.configureChecked (gadgetParams 2 3 gxMds gxInv gxRc) gxCols gxCs = .ok (c, cs') ∧
    ∃ x y L' log, hashAll (gadgetParams 2 3 gxMds gxInv gxRc) c gxL [] [fun _ => [gxA, gxB, gxA], fun _ => [gxB, gxB, gxA]] =
      .ok ([x, y], L') ∧ L'.ops = gxL.ops ++ log ∧
    ∀ g : Grid ℚ, InstanceOf g L'.ops {k | RCol.fixed k ∈ Gadget.OwnCols gxCols 0} {k | gxCs.numSelectors ≤ k ∧ k < cs'.numSelectors} →
      Fits log g.n → (∀ p ∈ cs'.gates, p.Holds g) → g.cell x.cell = g.cell y.cell →
      g.cell gxA.cell = g.cell gxB.cell ∨ WeakAt 0 1 (Base.permute ⟨2, 3, Base.sboxPow⟩ gxMds gxRc) (lengthState 2 1 ℚ 3)
        (blocks 2 0 1 [g.cell gxA.cell, g.cell gxB.cell, g.cell gxA.cell])
        (blocks 2 0 1 [g.cell gxB.cell, g.cell gxB.cell, g.cell gxA.cell]) := by
  have hd : gxCols.Distinct := by
    constructor <;> simp [gxCols, Function.Injective, Fin.forall_fin_two]
  have hinv : Matrix.of gxMds * Matrix.of gxInv = 1 := by
    ext i j
    fin_cases i <;> fin_cases j <;> norm_num [gxMds, gxInv, Matrix.mul_apply, Fin.sum_univ_succ]
  obtain ⟨c, cs', hcfg⟩ : ∃ c cs',
      Pow5.configureChecked (gadgetParams 2 3 gxMds gxInv gxRc) gxCols gxCs = .ok (c, cs') := by
    unfold Pow5.configureChecked
    rw [if_pos (by simp [gadgetParams]), Pow5.configure_eq]
    exact ⟨_, _, rfl⟩
  have hG : gxL.Good (Gadget.OwnCols gxCols 0) := by
    constructor
    · intro o ho k hk r h
      simp only [gxL, List.mem_cons, List.not_mem_nil, or_false] at ho
      rcases ho with rfl | rfl <;> · simp only [Op.Hits] at h; simp [gxL, h.2]
    · intro o ho o' ho' k hk r h h'
      simp only [gxL, List.mem_cons, List.not_mem_nil, or_false] at ho ho'
      rcases ho with rfl | rfl <;> rcases ho' with rfl | rfl <;>
        simp_all [Op.Hits, Op.payload]
  obtain ⟨outs, L', log, e1, e2, hlen, h⟩ := C113_gadget 2 3 gxMds gxInv gxRc (by simp [gxRc]) hinv gxCols hd gxCs cs' c hcfg gxL 0 rfl hG
    [fun _ => [gxA, gxB, gxA], fun _ => [gxB, gxB, gxA]] (by simp)
  obtain ⟨x, y, rfl⟩ : ∃ x y, outs = [x, y] := by
    match outs, hlen with
    | [x, y], _ => exact ⟨x, y, rfl⟩
  refine ⟨c, cs', hcfg, x, y, L', log, e1, e2, fun g hg hf hG hxy => ?_⟩
  rcases h [] g (by intro o ho; simp at ho) (by rw [List.append_nil]; exact hg) hf hG 0 1 _ _ x y rfl rfl rfl rfl rfl hxy with e | e
  · exact .inl (List.cons.inj e).1
  · exact .inr e

end Props
