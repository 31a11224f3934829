import Verif.Base.PermuteLemmas
import Verif.Base.SpongeLemmas
import Mathlib.Data.Rat.Defs
import Mathlib.Algebra.Field.Rat
import Mathlib.Tactic.NormNum

/-!
# Properties of the native permutation and hash functions: C01, C02, C04-C06, C08-C12
-/

namespace Props
open Base

variable {F : Type} [Field F]

/-- **C01.** `permute` is the HADES construction: `R_F/2` full, `R_P` partial, `R_F/2` full rounds, round
`r` using row `r` of the constants. -/
theorem C01_permute_textbook {T : ℕ} [NeZero T] (S : RSpec F) (mds : Mds F T)
    (rc : List (State F T)) (hrc : S.fullRounds + S.partialRounds ≤ rc.length) (s : State F T) :
    permute S mds rc s =
      Spec.poseidon S.sbox (Matrix.of mds) (S.fullRounds / 2) S.partialRounds
        (fun r => rc.getD r 0) s :=
  permute_eq_spec S mds rc s (by omega)

/- The hypothesis of C01 is met by the smallest interesting instance: 2 full and 1 partial round. -/
example : ∃ (S : RSpec ℚ) (rc : List (State ℚ 2)), S.fullRounds = 2 ∧ S.partialRounds = 1 ∧
    S.fullRounds + S.partialRounds ≤ rc.length :=
  ⟨⟨2, 1, fun x => x ^ 5⟩, [![1, 2], ![3, 4], ![5, 6]], rfl, rfl, by decide⟩

/-- **C02.** The compact table exists whenever the raw table is long enough, has the same length,
computes the same permutation (with either implementation of the S-box, so in both the `short` and the
default build), and has zeros in words `1..` of every partial round. -/
theorem C02_compact_same_permutation {T : ℕ} [NeZero T] (rp : ℕ) (mds : Mds F T)
    (raw : List (State F T)) (hlen : 8 + rp ≤ raw.length) :
    ∃ rc, compactConstants 8 rp mds raw = .ok rc ∧ rc.length = raw.length ∧
      (∀ s, permute (p128Pow5T3Compact rp) mds rc s = permute (p128Pow5T3 rp) mds raw s) ∧
      (∀ s, permute (p128Pow5T3 rp) mds rc s = permute (p128Pow5T3 rp) mds raw s) ∧
      (∀ j c, 4 ≤ j → j < 4 + rp → rc[j]? = some c → ∀ k, k ≠ 0 → c k = 0) := by
  obtain ⟨rc, h1, h2, h3, h4, -, -⟩ :=
    compactConstants_spec (p128Pow5T3 rp : RSpec F) mds raw (by simp [p128Pow5T3])
      (by simp [p128Pow5T3]; omega)
  refine ⟨rc, h1, h2, fun s => ?_, h3, by simpa [p128Pow5T3] using h4⟩
  rw [← h3 s]
  exact permute_congr_sbox 8 rp _ _ sboxCompact_eq mds rc s

/-- C02 for every even or odd number of full rounds and every S-box: the loop only relies on there
being one more round after the partial ones. -/
theorem C02_compact_same_permutation_general {T : ℕ} [NeZero T] (S : RSpec F) (mds : Mds F T)
    (raw : List (State F T)) (hf : 2 ≤ S.fullRounds)
    (hlen : S.fullRounds / 2 + S.partialRounds < raw.length) :
    ∃ rc, compactConstants S.fullRounds S.partialRounds mds raw = .ok rc ∧
      ∀ s, permute S mds rc s = permute S mds raw s := by
  obtain ⟨rc, h1, -, h3, -⟩ := compactConstants_spec S mds raw hf hlen
  exact ⟨rc, h1, h3⟩

example : (8 + 1 : ℕ) ≤ (List.replicate 9 (![1, 2, 3] : State ℚ 3)).length := by decide

/-- **C04.** `hash_with_domain([a, b], d)` is word 0 of one permutation of `[d, a, b]`; it never
panics; `hash` is the case `d = 0`. -/
theorem C04_hash_with_domain (perm : State F 3 → State F 3) (a b d : F) :
    hashWithDomain perm ![a, b] d = .ok (perm ![d, a, b] 0) ∧
      hash2 perm ![a, b] = .ok (perm ![0, a, b] 0) := by
  have main : ∀ d, hashWithDomain perm ![a, b] d = .ok (perm ![d, a, b] 0) := by
    intro d
    simp only [hashWithDomain, Hash.hashIden3, init_eq, updateCapacity_eq]
    have := absorbAll_eq (RATE := 2) perm 1
      (Function.update (Function.update (fun _ => 0) (capIndex 2 1) 0) (capIndex 2 1) (0 + d))
      [a, b] 0 (by omega) (by omega) (by omega) (Or.inl rfl) (by simp)
    simp only [DomainKind.padding, DomainKind.padding.constPad, DomainKind.layout,
      DomainKind.initialCapacity]
    simp only [List.replicate_zero, List.append_nil] at this
    simp only [if_true, bind, Except.bind, OfNat.ofNat_ne_zero, if_false, Function.update_self]
    have e : (List.ofFn ![a, b] ++ List.replicate ((2 + 2 - 1) / 2 * 2 - 2) 0) = [a, b] := by simp
    rw [e, show (3 - 2 : ℕ) = 1 from rfl, this]
    rw [if_neg (by simp), absorbBlocks_cons perm 1 2 [a, b] _ (by simp) (by omega)]
    rw [show [a, b].drop 2 = [] from rfl, absorbBlocks_nil, show [a, b].take 2 = [a, b] from rfl]
    congr 3
    funext i
    fin_cases i <;> simp [Spec.addBlock, capIndex]
  exact ⟨main d, main 0⟩

/-- **C05.** `hash_msg` on a non-empty message (of a length that fits `usize`) is the rate-2 sponge
from `[cap, 0, 0]`, with `cap` the given capacity or the default one. -/
theorem C05_hash_msg (legacy : Bool) (perm : State F 3 → State F 3) (msg : List F)
    (hlen : msg.length < 2 ^ 64) (hne : msg ≠ []) (cap : Option ℕ) :
    hashMsg legacy perm msg cap =
      .ok (Spec.spongeHash (Spec.onTriples perm)
        ((cap.getD (msg.length * if legacy then 1 else 2 ^ 64) : ℕ) : F) msg) := by
  have hcap : defaultCap legacy msg.length = .ok (msg.length * if legacy then 1 else 2 ^ 64) := by
    unfold defaultCap domainSpec
    rw [if_pos]
    cases legacy <;> simp <;> omega
  simp only [hashMsg, hcap, bind, Except.bind, Hash.hashWithCap, init_eq, updateCapacity_eq]
  generalize cap.getD (msg.length * if legacy then 1 else 2 ^ 64) = c
  simp only [DomainKind.padding, DomainKind.layout, DomainKind.initialCapacity,
    OfNat.ofNat_ne_zero, if_false]
  obtain ⟨h1, h2, h3⟩ := varPad_mod msg.length 2 (by omega)
  rw [show (3 - 2 : ℕ) = 1 from rfl, absorbAll_eq (RATE := 2) perm 1 _ msg _ (by omega) (by omega) h2 h3 h1,
    if_neg hne]
  congr 1
  have := absorbBlocks_pairs perm msg ![(c : F), 0, 0]
  simp only [Spec.spongeHash]
  simp only [Matrix.cons_val_zero, Matrix.cons_val_one, Matrix.cons_val] at this
  rw [this]
  congr 2
  funext i
  fin_cases i <;> simp [capIndex]

example : ([1, 2, 3] : List ℚ).length < 2 ^ 64 ∧ ([1, 2, 3] : List ℚ) ≠ [] := by simp

/-- **C06.** For every message whose length fits `usize`, `hash_msg` panics exactly on the empty
message, whatever the capacity. -/
theorem C06_hash_msg_panics_iff_empty (legacy : Bool) (perm : State F 3 → State F 3) (msg : List F)
    (hlen : msg.length < 2 ^ 64) (cap : Option ℕ) :
    (∃ e, hashMsg legacy perm msg cap = .error e) ↔ msg = [] := by
  constructor
  · rintro ⟨e, he⟩
    by_contra hne
    rw [C05_hash_msg legacy perm msg hlen hne cap] at he
    exact absurd he (by simp)
  · rintro rfl
    refine ⟨.notPadded, ?_⟩
    have hcap : defaultCap legacy 0 = .ok 0 := by simp [defaultCap]
    simp only [hashMsg, List.length_nil, hcap, bind, Except.bind, Hash.hashWithCap, init_eq,
      updateCapacity_eq, DomainKind.padding, DomainKind.layout, OfNat.ofNat_ne_zero, if_false]
    have := fun s => absorbAll_eq (F := F) (RATE := 2) (T := 3) perm 1 s
      [] 0 (by omega) (by omega) (by omega) (Or.inl rfl) (by simp)
    simp only [List.replicate_zero, List.append_nil, if_true] at this
    exact this _

example : ∃ e, hashMsg (F := ℚ) false id [] (some 7) = .error e :=
  (C06_hash_msg_panics_iff_empty false id [] (by simp) _).mpr rfl

/-- **C08.** With an explicit capacity an odd-length message and the same message followed by a
zero word have the same hash. -/
theorem C08_zero_padding_collides (legacy : Bool) (perm : State F 3 → State F 3) (msg : List F)
    (hlen : msg.length + 1 < 2 ^ 64) (hodd : msg.length % 2 = 1) (cap : ℕ) :
    hashMsg legacy perm msg (some cap) = hashMsg legacy perm (msg ++ [0]) (some cap) := by
  have hne : msg ≠ [] := by rintro rfl; simp at hodd
  rw [C05_hash_msg legacy perm msg (by omega) hne, C05_hash_msg legacy perm (msg ++ [0]) (by simpa using hlen) (by simp)]
  simp only [Option.getD_some, Spec.spongeHash]
  congr 2
  generalize ((cap : F), (0 : F), (0 : F)) = st
  clear hlen hne
  induction hn : msg.length using Nat.strong_induction_on generalizing msg st with
  | _ n ih =>
    match msg with
    | [] => simp at hodd
    | [a] => obtain ⟨c, x, y⟩ := st; simp [Spec.absorbPairs]
    | a :: b :: m =>
      obtain ⟨c, x, y⟩ := st
      simp only [Spec.absorbPairs, List.cons_append]
      exact ih m.length (by subst hn; simp; omega) m (by simp at hodd; omega) _ rfl

example : ([1, 2, 3] : List ℚ).length + 1 < 2 ^ 64 ∧ ([1, 2, 3] : List ℚ).length % 2 = 1 := by simp

/-- **C09.** A two-word message under capacity `c` hashes like `hash_with_domain` under domain
`from_u128(c)`. -/
theorem C09_two_words (legacy : Bool) (perm : State F 3 → State F 3) (a b : F) (c : ℕ) :
    hashMsg legacy perm [a, b] (some c) = hashWithDomain perm ![a, b] (c : F) := by
  rw [C05_hash_msg legacy perm [a, b] (by simp) (by simp), (C04_hash_with_domain perm a b _).1]
  simp [Spec.spongeHash, Spec.absorbPairs, Spec.onTriples]

/-- **C10.** Constant-length hashing: from the state with `L * 2^64` in word `RATE` (and zeros
elsewhere), the message is absorbed `RATE` words per permutation at word 0, missing words of
the last block counting as zero; the result is word 0. For `L = 0` the call panics. -/
theorem C10_constant_length {T RATE L : ℕ} [NeZero T] (h0 : 0 < RATE) (hT : RATE < T)
    (perm : State F T → State F T) (msg : Fin L → F) :
    Hash.hashConst perm (Hash.init (T := T) (RATE := RATE) (.constantLength L)) msg =
      if L = 0 then .error .notPadded
      else .ok (Spec.absorbBlocks perm 0 RATE (List.ofFn msg)
        (fun i => if i.val = RATE then ((L * 2 ^ 64 : ℕ) : F) else 0) 0) := by
  simp only [Hash.hashConst, init_eq, DomainKind.padding, DomainKind.padding.constPad,
    DomainKind.layout, if_true, if_neg (show RATE ≠ 0 by omega), bind, Except.bind]
  obtain ⟨h1, h2, h3⟩ := constPad_mod L RATE h0
  rw [absorbAll_eq perm 0 _ (List.ofFn msg) _ h0 (by omega) h2 (by simpa using h3) (by simpa using h1)]
  have e : (List.ofFn msg = []) ↔ L = 0 := by simp [List.ofFn_eq_nil_iff]
  simp only [e]
  split
  · rfl
  · congr 3
    funext i
    simp only [Function.update_apply, capIndex, Fin.ext_iff, add_zero,
      Nat.mod_eq_of_lt hT, DomainKind.initialCapacity]

example : (0 : ℕ) < 2 ∧ 2 < 3 := by decide

/-- **C11.** Iden3 constant-length hashing: from the state with the domain in the capacity word
(which is word 0) and zeros elsewhere, the message is absorbed right-aligned; the
result is word 0. For `L = 0` the call panics. -/
theorem C11_constant_length_iden3 {T RATE L : ℕ} [NeZero T] (h0 : 0 < RATE) (hT : RATE ≤ T)
    (perm : State F T → State F T) (msg : Fin L → F) (d : F) :
    Hash.hashIden3 perm (Hash.init (T := T) (RATE := RATE) (.constantLengthIden3 L)) msg d =
      if L = 0 then .error .notPadded
      else .ok (Spec.absorbBlocks perm (T - RATE) RATE (List.ofFn msg)
        (fun i => if i = 0 then d else 0) 0) := by
  simp only [Hash.hashIden3, init_eq, updateCapacity_eq, DomainKind.padding,
    DomainKind.padding.constPad, DomainKind.layout, if_true, if_neg (show RATE ≠ 0 by omega), bind,
    Except.bind]
  obtain ⟨h1, h2, h3⟩ := constPad_mod L RATE h0
  rw [absorbAll_eq perm (T - RATE) _ (List.ofFn msg) _ h0 (by omega) h2 (by simpa using h3)
    (by simpa using h1)]
  have e : (List.ofFn msg = []) ↔ L = 0 := by simp [List.ofFn_eq_nil_iff]
  have hc : (capIndex RATE (T - RATE) : Fin T) = 0 := by
    apply Fin.ext; simp [capIndex, Nat.add_sub_cancel' hT]
  simp only [e]
  split
  · rfl
  · congr 3
    funext i
    simp only [hc, Function.update_apply, DomainKind.initialCapacity]
    split <;> simp

/-- The second half of **C11**: the layout assertion of the sponge never fires for a domain of the
crate: no hash call of any of the three kinds ends in that panic (nor in any panic but the one for the
empty message). -/
theorem C11_layout_assertion {T RATE L : ℕ} [NeZero T] (h0 : 0 < RATE) (hT : RATE < T)
    (perm : State F T → State F T) (msg : Fin L → F) (m : List F) (d : F) (cap : ℕ) (e : Panic) :
    (Hash.hashConst perm (Hash.init (T := T) (RATE := RATE) (.constantLength L)) msg = .error e →
      e = .notPadded ∧ L = 0) ∧
    (Hash.hashIden3 perm (Hash.init (T := T) (RATE := RATE) (.constantLengthIden3 L)) msg d = .error e →
      e = .notPadded ∧ L = 0) ∧
    (Hash.hashWithCap perm (Hash.init (T := T) (RATE := RATE) .variableLengthIden3) m cap = .error e →
      e = .notPadded ∧ m = []) := by
  refine ⟨?_, ?_, ?_⟩
  · rw [C10_constant_length h0 hT]
    split
    · intro h; exact ⟨by simpa using h.symm, ‹_›⟩
    · intro h; simp at h
  · rw [C11_constant_length_iden3 h0 hT.le]
    split
    · intro h; exact ⟨by simpa using h.symm, ‹_›⟩
    · intro h; simp at h
  · simp only [Hash.hashWithCap, init_eq, updateCapacity_eq, DomainKind.padding,
      DomainKind.layout, if_neg (show RATE ≠ 0 by omega), bind, Except.bind]
    obtain ⟨h1, h2, h3⟩ := varPad_mod m.length RATE h0
    rw [absorbAll_eq perm (T - RATE) _ m _ h0 (by omega) h2 h3 h1]
    split
    · intro h; exact ⟨by simpa using h.symm, ‹_›⟩
    · intro h; simp at h

/-- **C12.** After `finish_absorbing` reached the state `s`, the `k`-th word squeezed is word
`k mod RATE` of the state after `k / RATE` further permutations; squeezing always succeeds. -/
theorem C12_squeeze_order {T RATE : ℕ} [NeZero T] (h0 : 0 < RATE) (hT : RATE ≤ T)
    (perm : State F T → State F T) (σ : Sponge F (Absorbing F RATE) T)
    (σ' : Sponge F (Squeezing F RATE) T) (hfin : σ.finishAbsorbing perm = .ok σ') (n : ℕ) :
    ∃ σ'', squeezeMany perm n σ' =
      .ok ((List.range n).map
        (fun k => perm^[k / RATE] σ'.state ⟨k % RATE, (Nat.mod_lt k h0).trans_le hT⟩), σ'') := by
  have hmode : σ'.mode = ⟨outputOf σ'.state⟩ := by
    simp only [Sponge.finishAbsorbing] at hfin
    cases hx : poseidonSponge perm σ.state (some (σ.mode, σ.layout)) with
    | error e => simp [hx, bind, Except.bind] at hfin
    | ok v =>
      simp only [hx, bind, Except.bind, pure, Except.pure, Except.ok.injEq] at hfin
      subst hfin
      simp only [poseidonSponge, bind, Except.bind, pure, Except.pure] at hx
      split_ifs at hx
      · split at hx
        · cases hx
        · cases hx; rfl
  have key : ∀ n s j, j ≤ RATE → ∃ σ'', squeezeMany (RATE := RATE) perm n
      ⟨takenMode RATE s j, s, σ'.layout⟩ =
      .ok ((List.range n).map
        (fun k => perm^[(j + k) / RATE] s ⟨(j + k) % RATE, (Nat.mod_lt _ h0).trans_le hT⟩), σ'') := by
    intro n
    induction n with
    | zero => intro s j _; exact ⟨_, rfl⟩
    | succ n ih =>
      intro s j hj
      rcases Nat.lt_or_ge j RATE with hlt | hge
      · obtain ⟨σ'', h⟩ := ih s (j + 1) (by omega)
        refine ⟨σ'', ?_⟩
        simp only [squeezeMany, Sponge.squeeze, takeFirst_takenMode s j hlt hT, bind, Except.bind,
          h, pure, Except.pure]
        rw [List.range_succ_eq_map, List.map_cons, List.map_map]
        congr 2
        simp only [add_zero, Nat.div_eq_of_lt hlt, Nat.mod_eq_of_lt hlt, Function.iterate_zero, id,
          List.cons.injEq, true_and]
        apply List.map_congr_left
        intro k _
        simp only [Function.comp, Nat.succ_eq_add_one]
        have : j + 1 + k = j + (k + 1) := by omega
        simp only [this]
      · have hj' : j = RATE := by omega
        subst hj'
        obtain ⟨σ'', h⟩ := ih (perm s) 1 (by omega)
        refine ⟨σ'', ?_⟩
        have hps : poseidonSponge (RATE := j) perm s none =
            .ok (perm s, takenMode j (perm s) 0) := by
          simp only [poseidonSponge, takenMode_zero]; rfl
        simp only [squeezeMany, Sponge.squeeze, takeFirst_done, hps,
          takeFirst_takenMode (perm s) 0 h0 hT, bind, Except.bind, zero_add, h, pure, Except.pure]
        rw [List.range_succ_eq_map, List.map_cons, List.map_map]
        congr 2
        simp only [add_zero, Nat.div_self h0, Nat.mod_self, Function.iterate_one,
          List.cons.injEq, true_and]
        apply List.map_congr_left
        intro k _
        simp only [Function.comp, Nat.succ_eq_add_one]
        have e1 : (j + (k + 1)) / j = (1 + k) / j + 1 := by
          rw [Nat.add_comm j, Nat.add_div_right _ h0, Nat.add_comm k]
        have e2 : (j + (k + 1)) % j = (1 + k) % j := by
          rw [Nat.add_mod_left, Nat.add_comm k]
        simp only [e1, e2, Function.iterate_succ_apply]
  obtain ⟨σ'', h⟩ := key n σ'.state 0 (by omega)
  refine ⟨σ'', ?_⟩
  have : σ' = ⟨takenMode RATE σ'.state 0, σ'.state, σ'.layout⟩ := by
    rw [takenMode_zero, ← hmode]
  rw [this]
  simpa using h

/- A sponge that has absorbed a full block meets the hypothesis of C12. -/
example : ∃ σ', Sponge.finishAbsorbing (F := ℚ) (T := 3) (RATE := 2) id
    ⟨modeOf 2 [5, 6], fun _ => 0, 1⟩ = .ok σ' :=
  ⟨_, by
    simp only [Sponge.finishAbsorbing]
    rw [poseidonSponge_full (RATE := 2) id 1 [5, 6] rfl (by decide) (by decide)]
    rfl⟩

end Props
