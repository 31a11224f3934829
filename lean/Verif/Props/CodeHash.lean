import Verif.Props.TableMessage
import Verif.Props.IdealCapacity

/-!
# Hashes of byte strings: C112

`spec/hash-table.md`, var-len mode, as the codehash circuit uses it: the bytes are packed into words of `k = STEP/2` bytes, two words to a
row, and the capacity is the number of bytes. (The packing is done by the users of the crate.)
-/

set_option linter.unusedVariables false
set_option linter.unusedSectionVars false

namespace Props
open Halo2 Circuit Circuit.Table Base Base.Bn256 Collide Ideal Game Simulate

/-! ### Specification -/

/-- The rows of a byte string. -/
def byteRows (k : ℕ) (b : List ℕ) : List (Fr × Fr) := pairs (byteWords k b)

/-- The hash of a byte string, by the code. -/
def bytesHash (short legacy : Bool) (k : ℕ) (b : List ℕ) : Except Panic Fr :=
  hashMsgFr short legacy (byteWords k b) (some (b.length * domainSpec legacy))

/-- A byte string that is not empty. -/
structure IsBytes (b : List ℕ) : Prop where
  byte : ∀ x ∈ b, x < 256
  ne_nil : b ≠ []

/-- The table holds two different messages with the digest. -/
def TableCollision (x : Run Fr) (g : Grid Fr) (short : Bool) (D : Fr) : Prop :=
  ∃ a₁ m₁ c₁ ws₁ a₂ m₂ c₂ ws₂, IsMessage x g a₁ m₁ c₁ ws₁ ∧ IsMessage x g a₂ m₂ c₂ ws₂ ∧ (c₁, ws₁) ≠ (c₂, ws₂) ∧
    hashMsgFr short x.legacy (ws₁.flatMap fun w => [w.1, w.2]) (some (c₁ * domainSpec x.legacy)) = .ok D ∧
    hashMsgFr short x.legacy (ws₂.flatMap fun w => [w.1, w.2]) (some (c₂ * domainSpec x.legacy)) = .ok D

/-! ### Lemmas -/

theorem pairs_flat {F : Type} [Field F] (m : List F) : pairs ((pairs m).flatMap fun w => [w.1, w.2]) = pairs m := by
  induction m using pairs.induct with
  | case1 => rfl
  | case2 a => rfl
  | case3 a b m ih =>
    change (a, b) :: pairs ((pairs m).flatMap fun w => [w.1, w.2]) = _
    rw [ih]
    rfl

theorem length_flat {A : Type} (l : List (A × A)) : (l.flatMap fun w => [w.1, w.2]).length = 2 * l.length := by
  induction l with
  | nil => rfl
  | cons w l ih =>
    rw [List.flatMap_cons, List.length_append, ih]
    simp
    omega

theorem flat_inj {A : Type} {l l' : List (A × A)} (h : (l.flatMap fun w => [w.1, w.2]) = l'.flatMap fun w => [w.1, w.2]) : l = l' := by
  induction l generalizing l' with
  | nil =>
    cases l' with
    | nil => rfl
    | cons w l' => simp at h
  | cons w l ih =>
    cases l' with
    | nil => simp at h
    | cons w' l' =>
      simp only [List.flatMap_cons, List.cons_append, List.nil_append, List.cons.injEq] at h
      rw [ih h.2.2, Prod.ext h.1 h.2.1]

theorem length_byteWords (k : ℕ) (b : List ℕ) : (byteWords k b : List Fr).length = (b.length + k - 1) / k := by
  simp [byteWords]

/-- A row for each `2 * k` bytes. -/
theorem length_byteRows {k : ℕ} (hk : 0 < k) (b : List ℕ) : (byteRows k b).length = (b.length + 2 * k - 1) / (2 * k) := by
  rw [byteRows, pairs_length, length_byteWords, Nat.mul_comm 2 k, ← Nat.div_div_eq_div_mul]
  congr 1
  rw [show b.length + k * 2 - 1 = b.length + k - 1 + k by omega, Nat.add_div_right _ hk]

theorem byteRows_ne {k : ℕ} (hk : 0 < k) {b : List ℕ} (h : IsBytes b) : byteRows k b ≠ [] := by
  have h0 : 0 < b.length := List.length_pos_iff.mpr h.ne_nil
  refine List.ne_nil_of_length_pos ?_
  rw [length_byteRows hk]
  exact Nat.div_pos (by omega) (by omega)

theorem length_byteRows_le {k : ℕ} (hk : 0 < k) (b : List ℕ) : (byteRows k b).length ≤ b.length := by
  rcases Nat.eq_zero_or_pos b.length with h | h
  · rw [length_byteRows hk, h, Nat.div_eq_of_lt (by omega)]
  · rw [length_byteRows hk]
    refine Nat.div_le_of_le_mul ?_
    have : b.length + 2 * k ≤ 2 * k * b.length + 1 := by nlinarith
    omega

/-- Rows and length determine the bytes. -/
theorem byteRows_inj {k : ℕ} (hk : 0 < k) (hk' : k ≤ 31) {b b' : List ℕ} (h : IsBytes b) (h' : IsBytes b') (hl : b.length = b'.length)
    (e : byteRows k b = byteRows k b') : b = b' :=
  byteWords_inj k hk hk' b b' h.byte h'.byte hl (pairs_inj _ _ (by rw [length_byteWords, length_byteWords, hl]) e)

/-- The hash is the one of the padded words. -/
theorem bytesHash_eq (short legacy : Bool) {k : ℕ} (hk : 0 < k) {b : List ℕ} (h : IsBytes b) (hl : b.length < 2 ^ 63) :
    bytesHash short legacy k b =
      hashMsgFr short legacy ((byteRows k b).flatMap fun w => [w.1, w.2]) (some (b.length * domainSpec legacy)) := by
  have h1 := length_byteRows_le hk b
  have h2 := byteRows_ne hk h
  have h3 : 0 < (byteRows k b).length := List.length_pos_iff.mpr h2
  have hw : (byteWords k b : List Fr) ≠ [] := by
    intro e
    rw [byteRows, e] at h2
    exact h2 rfl
  have hl' : (byteWords k b : List Fr).length < 2 ^ 64 := by
    have := pairs_length (byteWords k b : List Fr)
    change (byteRows k b).length = _ at this
    omega
  rw [bytesHash, (C04_C05_bn254 short legacy).2 _ _ hw hl', (C04_C05_bn254 short legacy).2 _ _ (by
    refine List.ne_nil_of_length_pos ?_
    rw [length_flat]
    omega) (by rw [length_flat]; omega)]
  unfold Spec.spongeHash
  rw [absorb_pairs, absorb_pairs, byteRows, pairs_flat]
  rfl

/-! ### Theorems -/

/-- **C112.** The circuit proves a digest of a byte string, with the rows and the control of the specification, if and only if it is the
one that the code computes. -/
theorem C112_proves (kind : ChipKind) (short short' legacy : Bool) (mode : LoadMode) {k : ℕ} (hk : 0 < k) (hk' : k < 2 ^ 63) (b : List ℕ)
    (h : IsBytes b) (hl : b.length < 2 ^ 63) (D : Fr) :
    Proves kind short legacy mode (2 * k) b.length ((byteRows k b).map fun w => (0, w.1, w.2)) D ↔ bytesHash short' legacy k b = .ok D := by
  have h1 := length_byteRows_le hk b
  have h3 : 0 < (byteRows k b).length := List.length_pos_iff.mpr (byteRows_ne hk h)
  rw [C58_message kind short short' legacy mode (by omega) (by omega) (by omega) _ (byteRows_ne hk h) (by omega) D,
    bytesHash_eq short' legacy hk h hl]
  refine and_iff_right ?_
  rw [length_byteRows hk] at h3 ⊢
  omega

/-- **C112**, collisions: byte strings with one digest are equal, or the computations show a weakness of the permutation (C54). -/
theorem C112_bytes (short legacy : Bool) {k : ℕ} (hk : 0 < k) (hk' : k ≤ 31) {b b' : List ℕ} (h : IsBytes b) (h' : IsBytes b')
    (hl : b.length < 2 ^ 63) (hl' : b'.length < 2 ^ 63) (e : bytesHash short legacy k b = bytesHash short legacy k b') :
    b = b' ∨ Weakness bnTriples ((b.length * domainSpec legacy : ℕ) : Fr) ((b'.length * domainSpec legacy : ℕ) : Fr)
      (byteRows k b) (byteRows k b') := by
  have hd : domainSpec legacy = if legacy then 1 else 2 ^ 64 := rfl
  rw [bytesHash, bytesHash, hd] at e
  exact C54_bytes short legacy k hk hk' b b' h.byte h'.byte h.ne_nil h'.ne_nil (by omega) (by omega) e

/-- **C112**, lookups: if the rows of a byte string are answered under `D`, in an accepted table with the gate of C94, then `D` is its hash,
or the table holds two different messages with hash `D`. -/
theorem C112_table {x : Run Fr} {kind : ChipKind} {short : Bool} {L' : Layouter Fr} {post : List (Op Fr)} {g : Grid Fr} (short' : Bool)
    (hacc : x.Accepted kind short L' post g) (hstep : x.step = x.STEP) {k : ℕ} (hk : 0 < k) (hS : x.STEP = 2 * k)
    (hcalcs : x.calcs < 2 ^ 63) (hbare : Bare x g) (b : List ℕ) (h : IsBytes b) (hl : b.length < 2 ^ 63) (D : Fr)
    (hans : ∀ t ∈ messageRows (domainSpec x.legacy) x.STEP D true b.length (byteRows k b), Answers x g t) :
    bytesHash short' x.legacy k b = .ok D ∨
    TableCollision x g short' D := by
  rw [bytesHash_eq short' x.legacy hk h hl]
  rcases C94_message short' hacc hstep (by omega) hcalcs hbare (List.length_pos_iff.mpr h.ne_nil) (by omega) (byteRows k b)
    (by rw [hS, length_byteRows hk]) D hans with e | e
  · exact .inl e
  · exact .inr e

/-- **C112**, lookups of two byte strings under one digest. -/
theorem C112_two {x : Run Fr} {kind : ChipKind} {short : Bool} {L' : Layouter Fr} {post : List (Op Fr)} {g : Grid Fr} (short' : Bool)
    (hacc : x.Accepted kind short L' post g) (hstep : x.step = x.STEP) {k : ℕ} (hk : 0 < k) (hk' : k ≤ 31) (hS : x.STEP = 2 * k)
    (hcalcs : x.calcs < 2 ^ 63) (hbare : Bare x g) (b b' : List ℕ) (h : IsBytes b) (h' : IsBytes b') (hl : b.length < 2 ^ 63)
    (hl' : b'.length < 2 ^ 63) (D : Fr)
    (hans : ∀ t ∈ messageRows (domainSpec x.legacy) x.STEP D true b.length (byteRows k b), Answers x g t)
    (hans' : ∀ t ∈ messageRows (domainSpec x.legacy) x.STEP D true b'.length (byteRows k b'), Answers x g t) :
    b = b' ∨ Weakness bnTriples ((b.length * domainSpec x.legacy : ℕ) : Fr) ((b'.length * domainSpec x.legacy : ℕ) : Fr)
      (byteRows k b) (byteRows k b') ∨ TableCollision x g short' D := by
  rcases C112_table short' hacc hstep hk hS hcalcs hbare b h hl D hans with e | e
  · rcases C112_table short' hacc hstep hk hS hcalcs hbare b' h' hl' D hans' with e' | e'
    · rcases C112_bytes short' x.legacy hk hk' h h' hl hl' (e.trans e'.symm) with q | q
      · exact .inl q
      · exact .inr (.inl q)
    · exact .inr (.inr e')
  · exact .inr (.inr e)

/-- **C112**, completeness: byte strings can be looked up, any number of them in one table. -/
theorem C112_complete (kind : ChipKind) (short short' legacy : Bool) (mode : LoadMode) {k : ℕ} (hk : 0 < k) (hk' : k < 2 ^ 63)
    (bs : List (List ℕ × Fr)) (hbs : ∀ b ∈ bs, IsBytes b.1 ∧ b.1.length < 2 ^ 63 ∧ bytesHash short' legacy k b.1 = .ok b.2)
    (hlen : (bs.map fun b => b.1.length).sum < 2 ^ 63 - 1) :
    ∃ (x : Run Fr) (L : Layouter Fr) (post : List (Op Fr)) (g : Grid Fr), x.Accepted kind short L post g ∧ x.legacy = legacy ∧
      x.mode = mode ∧ x.STEP = 2 * k ∧ x.step = 2 * k ∧ x.calcs < 2 ^ 63 ∧ Bare x g ∧
      ∀ b ∈ bs, ∀ t ∈ messageRows (domainSpec legacy) (2 * k) b.2 true b.1.length (byteRows k b.1), Answers x g t := by
  obtain ⟨x, L, post, g, h1, h2, h3, h4, h5, h6, h7, h8⟩ := C94_complete kind short short' legacy mode (K := 2 * k) (by omega) (by omega)
    (bs.map fun b => (b.1.length, byteRows k b.1, b.2)) (by
      intro m hm
      obtain ⟨b, hb, rfl⟩ := List.mem_map.mp hm
      obtain ⟨e1, e2, e3⟩ := hbs b hb
      refine ⟨List.length_pos_iff.mpr e1.ne_nil, length_byteRows hk _, ?_⟩
      rw [← bytesHash_eq short' legacy hk e1 e2]
      exact e3) (by
      refine lt_of_le_of_lt ?_ hlen
      rw [List.map_map]
      exact List.sum_le_sum fun b _ => length_byteRows_le hk b.1)
  exact ⟨x, L, post, g, h1, h2, h3, h4, h5, h6, h7, fun b hb => h8 _ (List.mem_map.mpr ⟨b, hb, rfl⟩)⟩

/-- The call for a byte string. -/
def bytesCall (legacy : Bool) (k : ℕ) (b : List ℕ) : CapCall :=
  .msg (b.length * if legacy then 1 else 2 ^ 64) ((byteRows k b).flatMap fun w => [w.1, w.2])

/-- The adversary has called two byte strings with one digest. -/
def TwoBytes (legacy : Bool) (k most : ℕ) {domains : Finset Fr}
    (τ : List (Event (State Fr 3) (ValidCapCall (controls legacy most) (words legacy (2 * k)) domains) (Except Panic Fr))) : Prop :=
  ∃ b b', IsBytes b ∧ IsBytes b' ∧ b ≠ b' ∧ ∃ p ∈ calls τ, ∃ p' ∈ calls τ, p.1.1 = bytesCall legacy k b ∧
    p'.1.1 = bytesCall legacy k b' ∧ p.2.2 = p'.2.2

/-- **C112**, byte strings of up to `most` bytes are calls of the game of C107, and the code of the call is the hash. -/
theorem C112_valid (legacy : Bool) {k most : ℕ} (hk : 0 < k) (domains : Finset Fr) (b : List ℕ) (h : IsBytes b) (hm : b.length ≤ most) :
    (bytesCall legacy k b).Valid (controls legacy most) (words legacy (2 * k)) domains ∧
      ∀ short, b.length < 2 ^ 63 → (bytesCall legacy k b).run legacy permBn = bytesHash short legacy k b := by
  have h0 : 0 < b.length := List.length_pos_iff.mpr h.ne_nil
  refine ⟨⟨Finset.mem_image.mpr ⟨b.length, Finset.mem_Icc.mpr ⟨h0, hm⟩, rfl⟩, ?_⟩, fun short hl => ?_⟩
  · rw [length_flat, length_byteRows hk, words_control]
  · have h1 := length_byteRows_le hk b
    have h3 : 0 < (byteRows k b).length := List.length_pos_iff.mpr (byteRows_ne hk h)
    have hne : ((byteRows k b).flatMap fun w => [w.1, w.2]) ≠ [] := by
      refine List.ne_nil_of_length_pos ?_
      rw [length_flat]
      omega
    rw [bytesHash_eq short legacy hk h hl, (C04_C05_bn254 short legacy).2 _ _ hne (by rw [length_flat]; omega), bytesCall, CapCall.run,
      C05_hash_msg legacy permBn _ (by rw [length_flat]; omega) hne]
    rfl

/-- **C112**, with a random permutation: two byte strings of at most `most` bytes with one digest are found with frequency at most
`2^-12` in `2^120` steps and blocks. -/
theorem C112_ideal (legacy : Bool) {k most : ℕ} (hk : 0 < k) (hk' : k ≤ 31) (hm : most + 2 * k < 2 ^ 63) {domains : Finset Fr}
    (hd : ∀ c, 1 ≤ c → c ≤ most → ((c * if legacy then 1 else 2 ^ 64 : ℕ) : Fr) ∉ domains) (hc : domains.card < 2 ^ 63)
    (A : CapDistinguisher (controls legacy most) (words legacy (2 * k)) domains) (N σ : ℕ)
    (hσ : ∀ (f : ValidCapCall (controls legacy most) (words legacy (2 * k)) domains → Fr) (coins : ℕ → State Fr 3),
      capBlocks (simulated (capCalls legacy (C107_controls legacy most (2 * k) (by omega) hm hd).1) A f coins N) ≤ σ)
    (hn : N + σ ≤ 2 ^ 120) :
    frequency (fun π => TwoBytes legacy k most (withCapCode legacy A N π)) ≤ 1 / 2 ^ 12 := by
  refine le_trans ?_ (C107_table legacy most (2 * k) (by omega) hm hd hc A N σ hσ hn)
  have hmono : ∀ P Q : Equiv.Perm (State Fr 3) → Prop, (∀ π, P π → Q π) → frequency P ≤ frequency Q := by
    intro P Q h
    have h1 : {ω | P ω}.ncard ≤ {ω | Q ω}.ncard := Set.ncard_le_ncard (fun ω hω => h ω hω) (Set.toFinite _)
    rw [frequency, frequency]
    exact div_le_div_of_nonneg_right (by exact_mod_cast h1) (Nat.cast_nonneg _)
  refine hmono _ _ fun π h => ?_
  obtain ⟨b, b', h1, h2, h3, p, hp, p', hp', e1, e2, e3⟩ := h
  refine ⟨p, hp, p', hp', fun e => h3 ?_, e3⟩
  rw [e, e2] at e1
  unfold bytesCall at e1
  injection e1 with q1 q2
  have hl : b.length = b'.length := by
    have hs : 0 < (if legacy then 1 else 2 ^ 64 : ℕ) := by cases legacy <;> norm_num
    exact (Nat.eq_of_mul_eq_mul_right hs q1).symm
  exact byteRows_inj hk hk' h1 h2 hl (flat_inj q2).symm

/-! ### Examples -/

/-- 70 bytes in words of 31: three words, two rows; the circuit with step 62 proves their hash. -/
example : IsBytes ((List.range 70).map (· + 1)) ∧ (byteRows 31 ((List.range 70).map (· + 1))).length = 2 ∧
    ∃ D, bytesHash true false 31 ((List.range 70).map (· + 1)) = .ok D ∧
      Proves .septidon true false .serial 62 70 ((byteRows 31 ((List.range 70).map (· + 1))).map fun w => (0, w.1, w.2)) D := by
  have hb : IsBytes ((List.range 70).map (· + 1)) := ⟨by simp; omega, by simp⟩
  refine ⟨hb, by rw [length_byteRows (by norm_num)]; simp, ?_⟩
  obtain ⟨D, hD⟩ : ∃ D, bytesHash true false 31 ((List.range 70).map (· + 1)) = .ok D := by
    refine ⟨_, (C04_C05_bn254 true false).2 _ _ ?_ ?_⟩
    · refine List.ne_nil_of_length_pos ?_
      rw [length_byteWords]
      simp
    · rw [length_byteWords]
      simp
  refine ⟨D, hD, ?_⟩
  have := (C112_proves .septidon true true false .serial (k := 31) (by norm_num) (by norm_num) _ hb (by simp) D).mpr hD
  simpa using this

/-- Trailing zeros count: the rows of `[1]` and `[1, 0]` are the same, the capacities are not, and the hashes are equal only if the
permutation is weak. -/
example : byteRows 31 [1] = byteRows 31 [1, 0] ∧ (bytesHash true false 31 [1] = bytesHash true false 31 [1, 0] →
    Weakness bnTriples ((1 * domainSpec false : ℕ) : Fr) ((2 * domainSpec false : ℕ) : Fr) (byteRows 31 [1]) (byteRows 31 [1, 0])) := by
  refine ⟨by simp [byteRows, byteWords, littleEndian, Nat.ofDigits], fun e => ?_⟩
  rcases C112_bytes true false (k := 31) (by norm_num) (by norm_num) ⟨by simp, by simp⟩ ⟨by simp, by simp⟩ (by norm_num) (by norm_num) e
    with h | h
  · cases h
  · exact h

/-- Two byte strings of 70 bytes and one, looked up in one table: the hypotheses of `C112_complete` and of `C112_table` hold. -/
example : ∃ (D D' : Fr) (x : Run Fr) (L : Layouter Fr) (post : List (Op Fr)) (g : Grid Fr), x.Accepted .septidon true L post g ∧
    x.STEP = 2 * 31 ∧ x.step = x.STEP ∧ x.calcs < 2 ^ 63 ∧ Bare x g ∧
    (∀ t ∈ messageRows (domainSpec x.legacy) x.STEP D true 70 (byteRows 31 ((List.range 70).map (· + 1))), Answers x g t) ∧
    (∀ t ∈ messageRows (domainSpec x.legacy) x.STEP D' true 1 (byteRows 31 [255]), Answers x g t) ∧
    (bytesHash true x.legacy 31 [255] = .ok D' ∨ TableCollision x g true D') := by
  have hok : ∀ b : List ℕ, b ≠ [] → b.length < 100 → ∃ D, bytesHash true false 31 b = .ok D := by
    intro b hb hl
    have h0 : 0 < b.length := List.length_pos_iff.mpr hb
    refine ⟨_, (C04_C05_bn254 true false).2 _ _ (List.ne_nil_of_length_pos ?_) ?_⟩
    · rw [length_byteWords]
      exact Nat.div_pos (by omega) (by omega)
    · rw [length_byteWords]
      omega
  obtain ⟨D, hD⟩ := hok ((List.range 70).map (· + 1)) (by simp) (by simp)
  obtain ⟨D', hD'⟩ := hok [255] (by simp) (by simp)
  obtain ⟨x, L, post, g, h1, h2, h3, h4, h5, h6, h7, h8⟩ := C112_complete .septidon true true false .serial (k := 31) (by norm_num)
    (by norm_num) [((List.range 70).map (· + 1), D), ([255], D')] (by
      intro b hb
      simp only [List.mem_cons, List.not_mem_nil, or_false] at hb
      rcases hb with rfl | rfl
      · exact ⟨⟨by simp; omega, by simp⟩, by simp, hD⟩
      · exact ⟨⟨by simp, by simp⟩, by simp, hD'⟩) (by simp)
  have q1 := h8 ((List.range 70).map (· + 1), D) (by simp)
  have q2 := h8 ([255], D') (by simp)
  rw [← h2, ← h4] at q1 q2
  refine ⟨D, D', x, L, post, g, h1, h4, h5.trans h4.symm, h6, h7, by simpa using q1, q2, ?_⟩
  exact C112_table true h1 (h5.trans h4.symm) (by norm_num) h4 h6 h7 [255] ⟨by simp, by simp⟩ (by simp) D' q2

/-- The adversary of C107, which calls a message of 100 bytes. -/
example : frequency (fun π => TwoBytes false 31 124 (withCapCode false exampleCap 3 π)) ≤ 1 / 2 ^ 12 :=
  C112_ideal false (k := 31) (most := 124) (by norm_num) (by norm_num) (by norm_num)
    (fun c h1 h2 => example_controls.domain _ (Finset.mem_image.2 ⟨c, Finset.mem_Icc.2 ⟨h1, h2⟩, rfl⟩))
    (lt_of_le_of_lt Finset.card_le_two (by norm_num)) exampleCap 3 3 example_capBlocks (by norm_num)

end Props
