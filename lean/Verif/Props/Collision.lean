import Verif.Props.Bn254
import Mathlib.Data.Nat.Digits.Lemmas

/-!
# Collisions of the message hash: C54
-/

set_option linter.unusedVariables false

namespace Props
open Base Base.Bn256

/-! ## Specification -/

namespace Collide
variable {F : Type} [Field F]

/-- The rate pairs of a message, an odd tail completed with zero. -/
def pairs : List F → List (F × F)
  | [] => []
  | [a] => [(a, 0)]
  | a :: b :: m => (a, b) :: pairs m

/-- The inputs on which the sponge evaluates `π` while absorbing pairs from state `s`. -/
def queries (π : F × F × F → F × F × F) : F × F × F → List (F × F) → List (F × F × F)
  | s, [] => []
  | (c, x, y), (a, b) :: m => (c, x + a, y + b) :: queries π (π (c, x + a, y + b)) m

/-- The sponge on pairs. -/
def absorb (π : F × F × F → F × F × F) : F × F × F → List (F × F) → F × F × F
  | s, [] => s
  | (c, x, y), (a, b) :: m => absorb π (π (c, x + a, y + b)) m

/-- The ways in which two computations can exhibit a weakness of `π`: two different inputs of `π` whose
images agree in word 0, or an input whose image has the other computation's capacity in word 0. The
inputs are among those evaluated by the two computations. -/
def Weakness (π : F × F × F → F × F × F) (c c' : F) (m m' : List (F × F)) : Prop :=
  (∃ q ∈ queries π (c, 0, 0) m, ∃ q' ∈ queries π (c', 0, 0) m', q ≠ q' ∧ (π q).1 = (π q').1) ∨
  (∃ q ∈ queries π (c, 0, 0) m, (π q).1 = c') ∨
  (∃ q' ∈ queries π (c', 0, 0) m', (π q').1 = c)

theorem absorb_pairs (π : F × F × F → F × F × F) (m : List F) (s : F × F × F) :
    Spec.absorbPairs π s m = absorb π s (pairs m) := by
  induction m using pairs.induct generalizing s with
  | case1 => rfl
  | case2 a => obtain ⟨c, x, y⟩ := s; simp [Spec.absorbPairs, pairs, absorb]
  | case3 a b m ih =>
    obtain ⟨c, x, y⟩ := s
    rw [Spec.absorbPairs, pairs, absorb]
    exact ih _

/-- `s` with the pair `p` added to the rate. -/
def add (s : F × F × F) (p : F × F) : F × F × F := (s.1, s.2.1 + p.1, s.2.2 + p.2)

theorem absorb_snoc (π : F × F × F → F × F × F) (m : List (F × F)) (p : F × F) (s : F × F × F) :
    absorb π s (m ++ [p]) = π (add (absorb π s m) p) := by
  induction m generalizing s with
  | nil => rfl
  | cons q m ih => exact ih _

theorem queries_snoc (π : F × F × F → F × F × F) (m : List (F × F)) (p : F × F) (s : F × F × F) :
    queries π s (m ++ [p]) = queries π s m ++ [add (absorb π s m) p] := by
  induction m generalizing s with
  | nil => rfl
  | cons q m ih =>
    rw [List.cons_append]
    show _ :: queries π _ (m ++ [p]) = _ :: (queries π _ m ++ _)
    rw [ih]
    rfl

theorem Weakness.snoc {π : F × F × F → F × F × F} {c c' : F} {m m' : List (F × F)} (p p' : F × F)
    (h : Weakness π c c' m m') : Weakness π c c' (m ++ [p]) (m' ++ [p']) := by
  unfold Weakness
  simp only [queries_snoc, List.mem_append]
  rcases h with ⟨q, h1, q', h2, h⟩ | ⟨q, h1, h⟩ | ⟨q, h1, h⟩
  · exact .inl ⟨q, .inl h1, q', .inl h2, h⟩
  · exact .inr (.inl ⟨q, .inl h1, h⟩)
  · exact .inr (.inr ⟨q, .inl h1, h⟩)

theorem add_inj {s : F × F × F} {p p' : F × F} (h : add s p = add s p') : p = p' := by
  simp only [add, Prod.mk.injEq, add_right_inj, true_and] at h
  exact Prod.ext h.1 h.2

theorem reduction (π : F × F × F → F × F × F) (c c' : F) (m m' : List (F × F)) (hm : m ≠ []) (hm' : m' ≠ [])
    (h : (absorb π (c, 0, 0) m).1 = (absorb π (c', 0, 0) m').1) :
    (c = c' ∧ m = m') ∨ Weakness π c c' m m' := by
  induction m using List.reverseRecOn generalizing m' with
  | nil => exact absurd rfl hm
  | append_singleton m p ih =>
    rcases List.eq_nil_or_concat' m' with rfl | ⟨m', p', rfl⟩
    · exact absurd rfl hm'
    rw [absorb_snoc, absorb_snoc] at h
    by_cases hq : add (absorb π (c, 0, 0) m) p = add (absorb π (c', 0, 0) m') p'
    swap
    · exact .inr (.inl ⟨_, by simp [queries_snoc], _, by simp [queries_snoc], hq, h⟩)
    have h1 : (absorb π (c, 0, 0) m).1 = (absorb π (c', 0, 0) m').1 := by
      have := congrArg (fun s : F × F × F => s.1) hq
      exact this
    rcases List.eq_nil_or_concat' m with rfl | ⟨n, a, rfl⟩
    · rcases List.eq_nil_or_concat' m' with rfl | ⟨n', a', rfl⟩
      · have hc : c = c' := h1
        subst hc
        exact .inl ⟨rfl, by rw [add_inj hq]⟩
      · rw [absorb_snoc] at h1
        exact .inr (.inr (.inr ⟨_, by rw [queries_snoc, queries_snoc]; simp, h1.symm⟩))
    · rcases List.eq_nil_or_concat' m' with rfl | ⟨n', a', rfl⟩
      · rw [absorb_snoc] at h1
        exact .inr (.inr (.inl ⟨_, by rw [queries_snoc, queries_snoc]; simp, h1⟩))
      · rcases ih _ (by simp) (by simp) h1 with ⟨rfl, he⟩ | hw
        · rw [he] at hq ⊢
          exact .inl ⟨rfl, by rw [add_inj hq]⟩
        · exact .inr (hw.snoc p p')

theorem pairs_ne_nil {m : List F} (h : m ≠ []) : pairs m ≠ [] := by
  match m with
  | [] => exact absurd rfl h
  | [a] => simp [pairs]
  | a :: b :: m => simp [pairs]

theorem pairs_inj (m : List F) : ∀ m' : List F, m.length = m'.length → pairs m = pairs m' → m = m' := by
  induction m using pairs.induct with
  | case1 => intro m' h _; exact (List.length_eq_zero_iff.mp h.symm).symm
  | case2 a =>
    intro m' h e
    match m', h with
    | [b], _ => simpa [pairs] using e
  | case3 a b m ih =>
    intro m' h e
    match m', h with
    | a' :: b' :: m', h =>
      simp only [pairs, List.cons.injEq, Prod.mk.injEq] at e
      rw [e.1.1, e.1.2, ih m' (by simpa using h) e.2]

/-- The value of a string of bytes, least significant first. -/
def littleEndian (l : List ℕ) : ℕ := Nat.ofDigits 256 l

/-- `spec/hash-table.md`, var-len mode: the message cut into words of `k` bytes, each packed least
significant byte first (a short last word is completed with zero bytes). -/
def byteWords (k : ℕ) (b : List ℕ) : List F :=
  (List.range ((b.length + k - 1) / k)).map fun i => ((littleEndian ((b.drop (i * k)).take k) : ℕ) : F)

end Collide

open Collide

/-- The textbook permutation of BN254 on triples. -/
noncomputable def bnTriples : Fr × Fr × Fr → Fr × Fr × Fr := Spec.onTriples specPerm

/-! ## C54 -/

/-- **C54, messages of words.** Two calls of `hash_msg` (any lengths, any capacities) that return the same
digest either absorbed the same zero-padded words from the same capacity, or exhibit, among the inputs they
evaluated the permutation on, two different inputs with images agreeing in word 0, or one whose image has
the other call's capacity in word 0. -/
theorem C54_collision (short legacy : Bool) (msg msg' : List Fr) (hne : msg ≠ []) (hne' : msg' ≠ [])
    (hlen : msg.length < 2 ^ 64) (hlen' : msg'.length < 2 ^ 64) (cap cap' : Option ℕ)
    (h : hashMsgFr short legacy msg cap = hashMsgFr short legacy msg' cap') :
    let c : Fr := ((cap.getD (msg.length * if legacy then 1 else 2 ^ 64) : ℕ) : Fr)
    let c' : Fr := ((cap'.getD (msg'.length * if legacy then 1 else 2 ^ 64) : ℕ) : Fr)
    (c = c' ∧ pairs msg = pairs msg') ∨ Weakness bnTriples c c' (pairs msg) (pairs msg') := by
  intro c c'
  rw [(C04_C05_bn254 short legacy).2 msg cap hne hlen, (C04_C05_bn254 short legacy).2 msg' cap' hne' hlen'] at h
  have h := Except.ok.inj h
  unfold Spec.spongeHash at h
  rw [absorb_pairs, absorb_pairs] at h
  exact reduction bnTriples c c' _ _ (pairs_ne_nil hne) (pairs_ne_nil hne') h

/-- **C54, default capacity.** With the default capacity the two messages are equal, or the calls exhibit
such a weakness. -/
theorem C54_default (short legacy : Bool) (msg msg' : List Fr) (hne : msg ≠ []) (hne' : msg' ≠ [])
    (hlen : msg.length < 2 ^ 64) (hlen' : msg'.length < 2 ^ 64)
    (h : hashMsgFr short legacy msg none = hashMsgFr short legacy msg' none) :
    msg = msg' ∨ Weakness bnTriples ((msg.length * if legacy then 1 else 2 ^ 64 : ℕ) : Fr)
      ((msg'.length * if legacy then 1 else 2 ^ 64 : ℕ) : Fr) (pairs msg) (pairs msg') := by
  rcases C54_collision short legacy msg msg' hne hne' hlen hlen' none none h with ⟨hc, hp⟩ | hw
  · refine .inl (pairs_inj _ _ ?_ hp)
    by_contra hl
    exact (C07_default_capacity legacy _ _ hlen hlen').2 hl hc
  · exact .inr hw

theorem byteWords_inj (k : ℕ) (hk : 0 < k) (hk' : k ≤ 31) (b b' : List ℕ) (hb : ∀ x ∈ b, x < 256)
    (hb' : ∀ x ∈ b', x < 256) (hl : b.length = b'.length)
    (h : (byteWords k b : List Fr) = byteWords k b') : b = b' := by
  have chunk : ∀ i, i < (b.length + k - 1) / k → (b.drop (i * k)).take k = (b'.drop (i * k)).take k := by
    intro i hi
    have h1 : (byteWords k b : List Fr)[i]? = (byteWords k b')[i]? := by rw [h]
    unfold byteWords at h1
    rw [← hl] at h1
    simp only [List.getElem?_map, List.getElem?_range hi, Option.map_some, Option.some.injEq] at h1
    have hlt : ∀ l : List ℕ, (∀ x ∈ l, x < 256) → littleEndian ((l.drop (i * k)).take k) < r := by
      intro l hx
      have : littleEndian ((l.drop (i * k)).take k) < 256 ^ ((l.drop (i * k)).take k).length :=
        Nat.ofDigits_lt_base_pow_length (by norm_num) fun x hx' =>
          hx x (List.mem_of_mem_drop (List.mem_of_mem_take hx'))
      refine lt_of_lt_of_le this (le_trans (Nat.pow_le_pow_right (by norm_num) ?_) (show 256 ^ 31 ≤ r by
        norm_num [r]))
      exact le_trans (List.length_take_le _ _) hk'
    have h2 := (ZMod.natCast_eq_natCast_iff' _ _ r).mp h1
    rw [Nat.mod_eq_of_lt (hlt b hb), Nat.mod_eq_of_lt (hlt b' hb')] at h2
    refine Nat.ofDigits_inj_of_len_eq (by norm_num) (by simp [hl]) ?_ ?_ h2
    · exact fun x hx' => hb x (List.mem_of_mem_drop (List.mem_of_mem_take hx'))
    · exact fun x hx' => hb' x (List.mem_of_mem_drop (List.mem_of_mem_take hx'))
  refine List.ext_getElem hl fun j hj hj' => ?_
  have hi : j / k < (b.length + k - 1) / k := by
    rw [Nat.lt_div_iff_mul_lt hk]
    have := Nat.div_mul_le_self j k
    omega
  have hc := congrArg (fun l => l[j % k]?) (chunk _ hi)
  have hjk : j / k * k + j % k = j := Nat.div_add_mod' j k
  simp only [List.getElem?_take, List.getElem?_drop, if_pos (Nat.mod_lt j hk), hjk] at hc
  rw [List.getElem?_eq_getElem hj, List.getElem?_eq_getElem hj'] at hc
  exact Option.some.inj hc

/-- **C54, byte strings.** The var-len encoding of `spec/hash-table.md` with words of at most 31 bytes and
capacity `L * 2^64` (`L` in a `legacy` build): equal digests of two non-empty byte strings mean equal
strings, or a weakness of the permutation among the evaluated inputs. -/
theorem C54_bytes (short legacy : Bool) (k : ℕ) (hk : 0 < k) (hk' : k ≤ 31) (b b' : List ℕ)
    (hb : ∀ x ∈ b, x < 256) (hb' : ∀ x ∈ b', x < 256) (hne : b ≠ []) (hne' : b' ≠ [])
    (hlen : b.length < 2 ^ 64) (hlen' : b'.length < 2 ^ 64)
    (h : hashMsgFr short legacy (byteWords k b) (some (b.length * if legacy then 1 else 2 ^ 64)) =
      hashMsgFr short legacy (byteWords k b') (some (b'.length * if legacy then 1 else 2 ^ 64))) :
    b = b' ∨ Weakness bnTriples ((b.length * if legacy then 1 else 2 ^ 64 : ℕ) : Fr)
      ((b'.length * if legacy then 1 else 2 ^ 64 : ℕ) : Fr) (pairs (byteWords k b)) (pairs (byteWords k b')) := by
  have hw : ∀ l : List ℕ, l ≠ [] → l.length < 2 ^ 64 →
      (byteWords k l : List Fr) ≠ [] ∧ (byteWords k l : List Fr).length < 2 ^ 64 := by
    intro l hl hlt
    have hpos : 0 < l.length := List.length_pos_iff.mpr hl
    have hlen : (byteWords k l : List Fr).length = (l.length + k - 1) / k := by simp [byteWords]
    constructor
    · apply List.ne_nil_of_length_pos
      rw [hlen]
      exact Nat.div_pos (by omega) hk
    · rw [hlen]
      refine lt_of_le_of_lt ?_ hlt
      rw [Nat.div_le_iff_le_mul_add_pred hk]
      have := Nat.le_mul_of_pos_left l.length hk
      omega
  rcases C54_collision short legacy _ _ (hw b hne hlen).1 (hw b' hne' hlen').1 (hw b hne hlen).2
      (hw b' hne' hlen').2 _ _ h with ⟨hc, hp⟩ | hx
  · have hl : b.length = b'.length := by
      by_contra hl
      exact (C07_default_capacity legacy _ _ hlen hlen').2 hl hc
    refine .inl (byteWords_inj k hk hk' b b' hb hb' hl (pairs_inj _ _ ?_ hp))
    simp [byteWords, hl]
  · exact .inr hx

-- the hypothesis is met by different messages: an odd message and its zero-padded form under one capacity
example (short legacy : Bool) : hashMsgFr short legacy [7] (some 5) = hashMsgFr short legacy [7, 0] (some 5) ∧
    ([7] : List Fr) ≠ [7, 0] ∧ pairs ([7] : List Fr) = pairs [7, 0] := by
  refine ⟨?_, by simp, rfl⟩
  rw [(C04_C05_bn254 short legacy).2 _ _ (by simp) (by simp), (C04_C05_bn254 short legacy).2 _ _ (by simp) (by simp)]
  unfold Spec.spongeHash
  rw [absorb_pairs, absorb_pairs]
  rfl

-- the weakness branch is reachable: for the identity map two different messages collide
example : (absorb (id : ℚ × ℚ × ℚ → _) (3, 0, 0) [(1, 2)]).1 = (absorb id (3, 0, 0) [(1, 4)]).1 ∧
    Weakness (id : ℚ × ℚ × ℚ → _) 3 3 [(1, 2)] [(1, 4)] :=
  ⟨rfl, .inl ⟨_, List.mem_singleton.mpr rfl, _, List.mem_singleton.mpr rfl, by norm_num, rfl⟩⟩

-- 33 bytes in words of 31: two words
example : (byteWords 31 (List.replicate 31 0 ++ [1, 2]) : List Fr) = [0, 513] := by
  have h : (List.range (((List.replicate 31 0 ++ [1, 2]).length + 31 - 1) / 31)).map
      (fun i => littleEndian (((List.replicate 31 0 ++ [1, 2]).drop (i * 31)).take 31)) = [0, 513] := by
    decide +kernel
  have := congrArg (List.map (fun n : ℕ => (n : Fr))) h
  rw [List.map_map] at this
  simpa [byteWords, Function.comp_def] using this

end Props
