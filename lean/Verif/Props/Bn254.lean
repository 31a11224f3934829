import Verif.Base.Bn256Lemmas
import Verif.Base.Cache
import Verif.Props.Native

/-!
# Properties of the BN254 instance: C03, C07, C13, C20, and C04/C05 with the crate's constants
-/

namespace Props
open Base Base.Bn256

/-- **C03.** The BN254 permutation of the crate (in both builds, with the cached compact constants)
never panics and is a bijection of the 3-word states; the S-box is a bijection. -/
theorem C03_bn254_bijective (short : Bool) :
    (∃ f : State Fr 3 → State Fr 3, (∀ s, permuteFr short s = .ok (f s)) ∧ Function.Bijective f) ∧
      Function.Bijective (fun x : Fr => (hashSpec short).sbox x) := by
  obtain ⟨rc, h1, -, h3, -⟩ := cached_ok
  have hs : Function.Bijective (fun x : Fr => (hashSpec short).sbox x) := by
    cases short
    · exact sbox_bijective
    · have : (fun x : Fr => (hashSpec true).sbox x) = fun x => x ^ 5 :=
        funext fun x => sboxCompact_eq x
      rw [this]; exact sbox_bijective
  refine ⟨⟨specPerm, fun s => ?_, ?_⟩, hs⟩
  · simp only [permuteFr, h1, bind, Except.bind, h3, pure, Except.pure]
  · exact poseidon_bijective _ sbox_bijective _ (isUnit_iff_ne_zero.mpr det_ne_zero) _ _ _

/-- `hash_with_domain` and `hash_msg` over `Fr` with the crate's own constants, in both builds, in
terms of textbook Poseidon with the raw (published) constants: C04 and C05 end to end. -/
theorem C04_C05_bn254 (short legacy : Bool) :
    (∀ a b d : Fr, hashWithDomainFr short ![a, b] d =
      .ok (Spec.poseidon (fun x => x ^ 5) (Matrix.of mds) 4 57 (fun i => roundConstants.getD i 0)
        ![d, a, b] 0)) ∧
    (∀ (msg : List Fr) (cap : Option ℕ), msg ≠ [] → msg.length < 2 ^ 64 →
      hashMsgFr short legacy msg cap = .ok (Spec.spongeHash
        (Spec.onTriples (Spec.poseidon (fun x => x ^ 5) (Matrix.of mds) 4 57
          (fun i => roundConstants.getD i 0)))
        ((cap.getD (msg.length * if legacy then 1 else 2 ^ 64) : ℕ) : Fr) msg)) := by
  obtain ⟨rc, h1, -, h3, -⟩ := cached_ok
  have hp : permute (hashSpec short) mds rc = specPerm := funext (h3 short)
  constructor
  · intro a b d
    simp only [hashWithDomainFr, h1, bind, Except.bind, hp, (C04_hash_with_domain _ _ _ _).1]
    rfl
  · intro msg cap hne hlen
    simp only [hashMsgFr, h1, bind, Except.bind, hp, C05_hash_msg legacy _ msg hlen hne]
    rfl

/-- **C07.** For every length that fits `usize` the product in the default capacity does not
overflow `u128`, and different lengths give different capacity words of `Fr`. -/
theorem C07_default_capacity (legacy : Bool) (m n : ℕ) (hm : m < 2 ^ 64) (hn : n < 2 ^ 64) :
    defaultCap legacy m = .ok (m * if legacy then 1 else 2 ^ 64) ∧
      (m ≠ n → ((m * (if legacy then 1 else 2 ^ 64) : ℕ) : Fr) ≠
        ((n * (if legacy then 1 else 2 ^ 64) : ℕ) : Fr)) := by
  constructor
  · unfold defaultCap domainSpec
    rw [if_pos]
    cases legacy <;> simp <;> omega
  · intro hne heq
    apply hne
    have hlt : ∀ k : ℕ, k < 2 ^ 64 → k * (if legacy then 1 else 2 ^ 64) < r := by
      intro k hk; cases legacy <;> simp [r] <;> omega
    have := (ZMod.natCast_eq_natCast_iff' _ _ r).mp heq
    rw [Nat.mod_eq_of_lt (hlt m hm), Nat.mod_eq_of_lt (hlt n hn)] at this
    cases legacy <;> simp at this <;> omega

/-- The default capacity is what `hash_msg(msg, None)` uses. -/
theorem C07_none_is_default (short legacy : Bool) (msg : List Fr) (hlen : msg.length < 2 ^ 64) :
    hashMsgFr short legacy msg none =
      hashMsgFr short legacy msg (some (msg.length * if legacy then 1 else 2 ^ 64)) := by
  obtain ⟨rc, h1, -⟩ := cached_ok
  simp only [hashMsgFr, h1, bind, Except.bind, hashMsg, (C07_default_capacity legacy _ 0 hlen (by omega)).1,
    Option.getD_none, Option.getD_some]

example : (3 : ℕ) < 2 ^ 64 ∧ (2 ^ 64 - 1 : ℕ) < 2 ^ 64 ∧ (3 : ℕ) ≠ 2 ^ 64 - 1 := by norm_num

/-- **C20.** The cofactor formula that initialises `MDS_INV` panics exactly on singular matrices and
otherwise yields a two-sided inverse. -/
theorem C20_mds_inv {F : Type} [Field F] [DecidableEq F] (m : Mds F 3) :
    ((Matrix.of m).det = 0 → mdsInv m = .error .invertZero) ∧
    ((Matrix.of m).det ≠ 0 → ∃ n, mdsInv m = .ok n ∧
      Matrix.of m * Matrix.of n = 1 ∧ Matrix.of n * Matrix.of m = 1) := by
  rw [mdsInv_eq]
  constructor
  · intro h; rw [if_pos h]
  · intro h
    rw [if_neg h]
    have hu : IsUnit (Matrix.of m).det := isUnit_iff_ne_zero.mpr h
    exact ⟨_, rfl, Matrix.mul_nonsing_inv _ hu, Matrix.nonsing_inv_mul _ hu⟩

/-- **C20** for the matrix of the crate: it is invertible, so `MDS_INV` is initialised to its inverse. -/
theorem C20_bn254_mds_inv : ∃ n, mdsInv mds = .ok n ∧
    Matrix.of mds * Matrix.of n = 1 ∧ Matrix.of n * Matrix.of mds = 1 :=
  (C20_mds_inv mds).2 det_ne_zero

example : ((Matrix.of ![![1, 0, 0], ![0, 1, 0], ![0, 0, 1]] : Matrix (Fin 3) (Fin 3) ℚ)).det ≠ 0 := by
  simp [Matrix.det_fin_three]

/-! ### C13 -/

open Cache

/-- Invariant of the cache machine: published values are the initialisers' values, a thread has read
exactly the values of the cells it went through, and the results are those of the calls done. -/
def CacheInv {Id V R : Type} (init : Id → V) (progs : ℕ → List (Call Id V R)) (w : World Id V R) :
    Prop :=
  (∀ i v, w.cells i = .ready v → v = init i) ∧
  (∀ t, ∃ done, progs t = done ++ (w.threads t).calls ∧
    (w.threads t).results = done.map (fun c => c.run (c.cells.map init)) ∧
    ∀ c cs, (w.threads t).calls = c :: cs →
      (w.threads t).got ++ (w.threads t).need.map init = c.cells.map init)

theorem cacheInv_reachable {Id V R : Type} [DecidableEq Id] (init : Id → V)
    (progs : ℕ → List (Call Id V R)) (w : World Id V R) (h : Reachable init progs w) :
    CacheInv init progs w := by
  induction h with
  | start =>
    refine ⟨by simp, fun t => ⟨[], by simp [Thread.start], by simp [Thread.start], ?_⟩⟩
    intro c cs hc
    simp only [Thread.start] at hc
    simp [Thread.start, hc]
  | step w w' t hw hs ih =>
    obtain ⟨ih1, ih2⟩ := ih
    cases hs with
    | read i rest v hneed hcell =>
      refine ⟨ih1, fun u => ?_⟩
      by_cases hu : u = t
      · subst hu
        obtain ⟨done, h1, h2, h3⟩ := ih2 u
        refine ⟨done, by simpa using h1, by simpa using h2, ?_⟩
        intro c cs hc
        simp only [Function.update_self] at hc ⊢
        have := h3 c cs hc
        rw [hneed] at this
        simpa [ih1 i v hcell] using this
      · simpa [Function.update_of_ne hu] using ih2 u
    | claim i rest hneed hcell =>
      refine ⟨fun j v hj => ?_, ih2⟩
      by_cases hji : j = i
      · subst hji; simp at hj
      · exact ih1 j v (by simpa [Function.update_of_ne hji] using hj)
    | publish i rest hneed hcell =>
      refine ⟨fun j v hj => ?_, ih2⟩
      by_cases hji : j = i
      · subst hji; simpa using hj.symm
      · exact ih1 j v (by simpa [Function.update_of_ne hji] using hj)
    | finish c cs hneed hcalls =>
      refine ⟨ih1, fun u => ?_⟩
      by_cases hu : u = t
      · subst hu
        obtain ⟨done, h1, h2, h3⟩ := ih2 u
        have hgot := h3 c cs hcalls
        rw [hneed] at hgot
        simp only [List.map_nil, List.append_nil] at hgot
        refine ⟨done ++ [c], ?_, ?_, ?_⟩
        · simp [Thread.start, h1, hcalls]
        · simp [Thread.start, h2, hgot]
        · intro c' cs' hc'
          simp only [Function.update_self, Thread.start] at hc' ⊢
          simp [hc']
      · simpa [Function.update_of_ne hu] using ih2 u

/-- **C13.** Whatever the threads do and however their steps (including the cache initialisations)
interleave, the results a thread has received so far are, in order, those that fresh hashers would
give for the calls it has completed. -/
theorem C13_history_independent (short legacy : Bool) (progs : ℕ → List Api)
    (w : World CellId Val (Except Panic Fr))
    (h : Reachable initVal (fun t => (progs t).map (Api.call short legacy)) w) (t : ℕ) :
    ∃ done todo, progs t = done ++ todo ∧
      (w.threads t).results = done.map (fun
        | .hashWithDomain inp d => hashWithDomainFr short inp d
        | .hashMsg msg cap => hashMsgFr short legacy msg cap) := by
  obtain ⟨-, h2⟩ := cacheInv_reachable initVal _ w h
  obtain ⟨done, h3, h4, -⟩ := h2 t
  obtain ⟨d, e, hde, hd, he⟩ := List.map_eq_append_iff.mp h3
  refine ⟨d, e, hde, ?_⟩
  rw [h4, ← hd, List.map_map]
  apply List.map_congr_left
  intro a _
  cases a <;> rfl

/-- Deadlock freedom of the cache protocol: while a thread still has a call to make, some thread can
take a step. -/
theorem C13_no_deadlock {Id V R : Type} [DecidableEq Id] (init : Id → V)
    (progs : ℕ → List (Call Id V R)) (w : World Id V R) (h : Reachable init progs w) (t : ℕ)
    (ht : (w.threads t).calls ≠ []) : ∃ u w', Step init u w w' := by
  have hrun : ∀ w, Reachable init progs w → ∀ i u, w.cells i = .running u →
      ∃ rest, (w.threads u).need = i :: rest := by
    intro w h
    induction h with
    | start => intro i u hi; simp at hi
    | step w w' t hw hs ih =>
      intro i u hi
      cases hs with
      | read j rest v hneed hcell =>
        obtain ⟨rest', h'⟩ := ih i u hi
        by_cases hu : u = t
        · subst hu
          rw [hneed] at h'
          obtain ⟨rfl, -⟩ := List.cons.inj h'
          simp only at hi
          rw [hcell] at hi; simp at hi
        · exact ⟨rest', by simpa [Function.update_of_ne hu] using h'⟩
      | claim j rest hneed hcell =>
        by_cases hij : i = j
        · subst hij
          simp only [Function.update_self, Cell.running.injEq] at hi
          subst hi
          exact ⟨rest, hneed⟩
        · exact ih i u (by simpa [Function.update_of_ne hij] using hi)
      | publish j rest hneed hcell =>
        by_cases hij : i = j
        · subst hij; simp at hi
        · exact ih i u (by simpa [Function.update_of_ne hij] using hi)
      | finish c cs hneed hcalls =>
        obtain ⟨rest', h'⟩ := ih i u hi
        by_cases hu : u = t
        · subst hu; rw [hneed] at h'; simp at h'
        · exact ⟨rest', by simpa [Function.update_of_ne hu] using h'⟩
  cases hn : (w.threads t).need with
  | nil =>
    obtain ⟨c, cs, hc⟩ := List.exists_cons_of_ne_nil ht
    exact ⟨t, _, Step.finish w c cs hn hc⟩
  | cons i rest =>
    cases hc : w.cells i with
    | empty => exact ⟨t, _, Step.claim w i rest hn hc⟩
    | ready v => exact ⟨t, _, Step.read w i rest v hn hc⟩
    | running u =>
      obtain ⟨rest', h'⟩ := hrun w h i u hc
      exact ⟨u, _, Step.publish w i rest' h' hc⟩

/- A reachable world in which thread 0 has claimed the hasher cell. -/
example : ∃ w : World CellId Val (Except Panic Fr),
    Reachable initVal (fun _ => [Api.call true false (.hashMsg [1, 2, 3] none)]) w ∧
      w.cells .msgHasher = .running 0 :=
  ⟨_, .step _ _ 0 .start (.claim _ .msgHasher [.constants] rfl rfl), by simp⟩

end Props
