import Verif.Circuit.Environment
import Verif.Props.ArgumentSame
import Verif.Props.ArgumentOracle

/-!
# Keys and proofs made on different machines

`poseidon_parallel_synthesis` in `/repo/poseidon-circuit/src/hash.rs`, lines 1155-1241, makes the key with serial assignment,
the proof with parallel assignment, and verifies it with serial assignment.
-/

namespace Props
open Halo2 Circuit Circuit.Table Base.Bn256
open Polynomial

/-- **C98.** The table is assigned serially exactly if the build has no `parallel_syn` or the variable is `serial`; any
other value, or none, means parallel, in as many chunks as there are processors, or 32 if they cannot be counted. -/
theorem C98_mode (e : Env) :
    (e.mode = .serial ↔ e.parallelSyn = false ∨ e.assignmentType = some "serial") ∧
    (e.mode ≠ .serial → e.mode = .parallel (match e.tableThreads with | some n => n | none => 32)) := by
  obtain ⟨ps, v, th, th'⟩ := e
  have hp : (Env.mk ps v th th').isParallel = false ↔ ps = false ∨ v = some "serial" := by
    cases ps with
    | false => simp [Env.isParallel]
    | true =>
      cases v with
      | none => simp [Env.isParallel]
      | some s =>
        by_cases hs : s = "serial"
        · simp [Env.isParallel, hs]
        · by_cases hs' : s = "parallel"
          · simp [Env.isParallel, hs']
          · simp only [Env.isParallel, if_true, Option.getD_some, Option.some.injEq, hs, or_false, Bool.true_eq_false]
  cases h : (Env.mk ps v th th').isParallel with
  | false =>
    have hm : (Env.mk ps v th th').mode = .serial := by rw [Env.mode, h]; rfl
    exact ⟨⟨fun _ => hp.mp h, fun _ => hm⟩, fun hne => absurd hm hne⟩
  | true =>
    have hm : (Env.mk ps v th th').mode = .parallel (th.getD 32) := by rw [Env.mode, h]; rfl
    refine ⟨⟨fun hs => ?_, fun hs => ?_⟩, fun _ => ?_⟩
    · rw [hm] at hs; cases hs
    · rw [hp.mpr hs] at h; cases h
    · rw [hm]; cases th <;> rfl

/-- What happens in an environment is what happens in its mode; the number of processors seen by the permutation chip does
not matter. -/
theorem C98_load {x : Run Fr} {k : ChipKind} {short : Bool} (hbn : x.IsBn k short) (e : Env) :
    x.loadIn e = (x.reload x.table e.mode).load := Run.loadIn_eq hbn.1 e

/-- The key of a hash table does not depend on where it is made: the same table or another one, loaded in two environments
in any circuit, gives the same key (or the same error), if both assign serially, or both in parallel, or the columns are
free from the same row on. -/
theorem C98_key {x : Run Fr} {k : ChipKind} {short : Bool} (hbn : x.IsBn k short) (hx : x.Legal) {e e' : Env}
    (hm : e.mode.isSerial = e'.mode.isSerial ∨ x.Level) {t : HashTable Fr} (ht : ∀ c ∈ t.controls, c < 2 ^ 64)
    {L L' : Layouter Fr} (hL : x.loadIn e = .ok L) (hL' : (x.reload t x.mode).loadIn e' = .ok L') (post : List (Op Fr))
    (cs : CS Fr) (ws : List (Wide Fr)) (n : ℕ) (ω δ : Fr) :
    keygenWith cs ws (L.ops ++ post) n ω δ = keygenWith cs ws (L'.ops ++ post) n ω δ := by
  rw [C98_load hbn] at hL
  have hbn' : (x.reload t x.mode).IsBn k short := ⟨hbn.1, hbn.2⟩
  rw [C98_load hbn'] at hL'
  have hlev : x.Level → (x.reload x.table e.mode).Level := fun h => h
  exact C91_key (x := x.reload x.table e.mode) (t := t) (m := e'.mode) ⟨hbn.1, hbn.2⟩
    ⟨hx.cols, hx.inj, hx.enable, hx.STEP_lt, hx.step_lt, hx.calcs_lt, hx.controls_lt⟩ hL
    (hm.imp id hlev) ⟨hx.cols, hx.inj, hx.enable, hx.STEP_lt, hx.step_lt, hx.calcs_lt, ht⟩ hL' post cs ws n ω δ

/-- The test circuits, with the key made in one environment from one table and the proof made in another environment for
another table: the key is the same as if it had been made where the proof is made, so all that has been shown about proofs
holds; a table of complete blocks is proven, but for `17 * 2^kk` in `r` of all oracles. -/
theorem C98_tests {k : ChipKind} {ch : Chip Fr 3} (hch : bnChip k = .ok ch) (short legacy : Bool) (mode : LoadMode)
    {STEP : ℕ} {t t' : HashTable Fr} {calcs : ℕ} (hS : STEP < 2 ^ 64) (hc : calcs < 2 ^ 64)
    (ht : ∀ c ∈ t.controls, c < 2 ^ 64) (ht' : ∀ c ∈ t'.controls, c < 2 ^ 64) {kk : ℕ} (hkk : kk ≤ 28) {e e' : Env}
    {x y : Run Fr} (hx : x = testRun ch short legacy mode STEP t calcs) (hy : y = testRun ch short legacy mode STEP t' calcs)
    {L L' : Layouter Fr} (hL : x.loadIn e = .ok L) (hL' : y.loadIn e' = .ok L') :
    (∀ n ω δ, keygen x.configured.2 L.ops n ω δ = keygen y.configured.2 L'.ops n ω δ) ∧
    ∀ K, keygen x.configured.2 L.ops (2 ^ kk) (omega kk) delta = .ok K →
      (∀ (A : Cheat Fr) (Q : ℕ), Nat.card {u : Fin Q → Challenges Fr // ∃ s ∈ play A (tape u) Q,
        s.1.Short (2 ^ kk) ∧ s.1.Accepts K s.2 ∧ ¬ (y.reload t' e'.mode).Accepted k short L' [] (K.grid s.1.advice)} *
          Base.Bn256.r ≤ Q * (52 * 2 ^ kk) * Base.Bn256.r ^ (5 * Q)) ∧
      (Complete STEP STEP t' calcs → ∃ A : Cheat Fr, Base.Bn256.r ^ 20 ≤
        Nat.card {u : Fin 4 → Challenges Fr // ∃ s ∈ (play A (tape u) 4).head?, s.1.Short (2 ^ kk) ∧ s.1.Accepts K s.2 ∧
          ∀ c, ∀ r < 2 ^ kk - 6, (s.1.advice c).eval (omega kk ^ r) = finalAdvice L'.ops c r} +
            17 * 2 ^ kk * Base.Bn256.r ^ 19) := by
  have hlegal : x.Legal := by
    rw [hx]
    exact ⟨fun i => i.isLt, fun i j h => Fin.ext h, by simp [testRun], hS, hS, hc, ht⟩
  have hbn : x.IsBn k short := by rw [hx]; exact ⟨hch, rfl⟩
  have hbn' : y.IsBn k short := by rw [hy]; exact ⟨hch, rfl⟩
  have hlev : x.Level := by
    refine ⟨0, ?_⟩
    rw [hx]
    exact ⟨fun _ _ => rfl, fun _ _ => rfl, fun _ _ => rfl⟩
  have ey : y = x.reload t' x.mode := by rw [hx, hy]; rfl
  have ec : x.configured.2 = y.configured.2 := by rw [ey]; rfl
  have hkey : ∀ n ω δ, keygen x.configured.2 L.ops n ω δ = keygen y.configured.2 L'.ops n ω δ := by
    intro n ω δ
    have := C98_key hbn hlegal (e := e) (e' := e') (Or.inr hlev) ht' hL (by rw [← ey]; exact hL') [] x.configured.2 [] n ω δ
    rw [List.append_nil, List.append_nil] at this
    rw [← ec]
    exact this
  refine ⟨hkey, fun K hK => ?_⟩
  rw [hkey] at hK
  rw [C98_load hbn'] at hL'
  have hz : y.reload y.table e'.mode = testRun ch short legacy e'.mode STEP t' calcs := by rw [hy]; rfl
  have hz' : y.reload t' e'.mode = testRun ch short legacy e'.mode STEP t' calcs := by rw [hy]; rfl
  have et : (y.reload t' e'.mode) = y.reload y.table e'.mode := hz'.trans hz.symm
  have key := C97_tests hch short legacy e'.mode hS hc ht' hkk hz hL' (K := K) hK
  constructor
  · intro A Q
    refine le_trans (Nat.mul_le_mul_right _ ?_) (key.1 A Q)
    rw [nat_card_eq_count, nat_card_eq_count]
    refine count_mono ?_
    rintro u ⟨s, hs, h1, h2, h3⟩
    exact ⟨s, hs, h1, h2, fun h => h3 (by rw [et]; exact h.1)⟩
  · intro hcom
    have hω := omega_primitive hkk
    obtain ⟨A, hA⟩ := key.2 (fun c => interp (2 ^ kk) (omega kk) (finalAdvice L'.ops c)) (fun c => interp_degree hω _)
      (fun c r hr => interp_eval hω _ (by omega)) hcom
    refine ⟨A, hA.trans (Nat.add_le_add_right ?_ _)⟩
    rw [nat_card_eq_count, nat_card_eq_count]
    refine count_mono ?_
    rintro u ⟨s, hs, h1, h2, h3⟩
    refine ⟨s, hs, h1, h3, fun c r hr => ?_⟩
    rw [h2]
    exact interp_eval hω _ (by omega)

/-- `poseidon_parallel_synthesis`: its circuit has a key on `2^8` rows whatever the environment, and has a proof whatever
the environment of the proof. -/
theorem C98_synthesis {k : ChipKind} {ch : Chip Fr 3} (hch : bnChip k = .ok ch) (short legacy : Bool) (e e' : Env) {x : Run Fr}
    (hx : x = testRun ch short legacy .serial 32 ⟨[(1, 2), (50331648, 0)], [45, 13], [], []⟩ 4) :
    ∃ L L', x.loadIn e = .ok L ∧ x.loadIn e' = .ok L' ∧
      ∃ K, keygen x.configured.2 L.ops (2 ^ 8) (omega 8) delta = .ok K ∧
        ∃ A : Cheat Fr, Base.Bn256.r ^ 20 ≤
          Nat.card {u : Fin 4 → Challenges Fr // ∃ s ∈ (play A (tape u) 4).head?, s.1.Short (2 ^ 8) ∧ s.1.Accepts K s.2 ∧
            ∀ c, ∀ r < 2 ^ 8 - 6, (s.1.advice c).eval (omega 8 ^ r) = finalAdvice L'.ops c r} +
              17 * 2 ^ 8 * Base.Bn256.r ^ 19 := by
  have hc : Complete 32 32 ⟨[(1, 2), (50331648, 0)], [45, 13], [], []⟩ 4 := by
    refine ⟨fun j hj h => ?_, fun j hj => ?_⟩
    · obtain rfl | rfl | h' : j = 0 ∨ j = 1 ∨ 2 ≤ j := by omega
      · simp [rowCtl, rowDom]
      · simp [rowCtl] at h
      · obtain ⟨j, rfl⟩ : ∃ i, j = i + 2 := ⟨j - 2, by omega⟩
        simp [rowCtl] at h
    · obtain rfl : j = 3 := by omega
      simp [rowCtl, rowWords]
  have hck : ChecksMatch legacy 32 ⟨[(1, 2), (50331648, 0)], [45, 13], [], []⟩ 4 := by
    intro a m _ _ ck h; simp [rowCk] at h
  have hbn : x.IsBn k short := by rw [hx]; exact ⟨hch, rfl⟩
  have hload : ∀ e : Env, ∃ L, x.loadIn e = .ok L := by
    intro e
    rw [C98_load hbn]
    have hl : (x.reload x.table e.mode).Legal := by
      rw [hx]
      exact ⟨fun i => i.isLt, fun i j h => Fin.ext h, by simp [testRun, Run.reload], by simp [testRun, Run.reload],
        by simp [testRun, Run.reload], by simp [testRun, Run.reload], by simp [testRun, Run.reload]⟩
    refine (C41_checks (x := x.reload x.table e.mode) (k := k) (short := short) ⟨hbn.1, hbn.2⟩ hl).1.mpr ⟨?_, ?_⟩
    · rw [hx]
      intro _
      simp [testRun, Run.reload]
    · rw [hx]
      exact hck
  obtain ⟨L, hL⟩ := hload e
  obtain ⟨L', hL'⟩ := hload e'
  have hLr := hL
  rw [C98_load hbn] at hLr
  obtain ⟨K, hK⟩ := (C88_tests hch short legacy e.mode (STEP := 32) (calcs := 4)
    (t := ⟨[(1, 2), (50331648, 0)], [45, 13], [], []⟩) (by norm_num) (by norm_num) (by simp)
    (kk := 8) (by norm_num) (x := x.reload x.table e.mode) (by rw [hx]; rfl) hLr).1.mpr
      ⟨by norm_num, by norm_num, by cases k <;> simp [ChipKind.rows]⟩
  refine ⟨L, L', hL, hL', K, hK, ?_⟩
  exact ((C98_tests hch short legacy .serial (by norm_num) (by norm_num) (by simp) (by simp) (by norm_num) hx hx hL
    hL').2 K hK).2 hc

-- the environments of that test, and a machine without the feature
example : (Env.mk true (some "serial") (some 8) (some 8)).mode = .serial ∧
    (Env.mk true (some "parallel") (some 8) (some 4)).mode = .parallel 8 ∧
    (Env.mk true none none none).mode = .parallel 32 ∧ (Env.mk true (some "Serial") (some 2) none).mode = .parallel 2 ∧
    (Env.mk false (some "parallel") (some 8) (some 8)).mode = .serial := by
  refine ⟨rfl, rfl, rfl, ?_, rfl⟩
  exact (C98_mode _).2 (by rw [Ne, (C98_mode _).1]; simp)

end Props
