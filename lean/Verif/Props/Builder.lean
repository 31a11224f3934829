import Verif.Circuit.Builder
import Mathlib.Data.List.Basic
import Mathlib.Algebra.Order.Ring.Nat
import Mathlib.Tactic.Ring
import Mathlib.Tactic.Linarith

/-!
# Properties of the hash table builder: C38, C39, C40
-/

set_option linter.unusedVariables false

namespace Props
open Circuit HashTable

variable {F : Type}

theorem resize_prefix {α : Type} (l : List α) (n : ℕ) (v : α) (h : l.length ≤ n) :
    resize l n v = l ++ List.replicate (n - l.length) v := by
  unfold resize
  rw [List.take_of_length_le h]

theorem length_resize {α : Type} (l : List α) (n : ℕ) (v : α) : (resize l n v).length = n := by
  unfold resize
  simp only [List.length_append, List.length_take, List.length_replicate]
  omega

theorem constantInputsWithCheck_eq (t : HashTable F) (src : List (F × F × F)) :
    t.constantInputsWithCheck src =
      {inputs := t.inputs ++ src.map (fun x => (x.1, x.2.1))
       controls := t.controls ++ List.replicate src.length 0
       domain := t.domain
       checks := resize t.checks t.inputs.length none ++ src.map (fun x => some x.2.2)} := by
  unfold constantInputsWithCheck
  generalize resize t.checks t.inputs.length none = ck
  obtain ⟨i, c, d, k⟩ := t
  simp only
  induction src generalizing i c ck with
  | nil => simp
  | cons x xs ih =>
    obtain ⟨a, b, e⟩ := x
    simp only [List.foldl_cons]
    rw [ih]
    simp [List.replicate_succ]

theorem fixedInputs_eq (t : HashTable F) (src : List ((F × F) × F × Option F)) :
    t.fixedInputs src =
      {inputs := t.inputs ++ src.map Prod.fst
       controls := resize t.controls t.inputs.length 0 ++ List.replicate src.length 0
       domain := resize t.domain t.inputs.length none ++ src.map (fun x => some x.2.1)
       checks := resize t.checks t.inputs.length none ++ src.map (fun x => x.2.2)} := by
  unfold fixedInputs
  generalize resize t.checks t.inputs.length none = ck
  generalize resize t.domain t.inputs.length none = dm
  generalize resize t.controls t.inputs.length 0 = ct
  obtain ⟨i, c, d, k⟩ := t
  simp only
  induction src generalizing i ct ck dm with
  | nil => simp
  | cons x xs ih =>
    obtain ⟨a, b, e⟩ := x
    simp only [List.foldl_cons]
    rw [ih]
    simp [List.replicate_succ]

/-- Lengths are consistent: no column is longer than the input column. -/
def Aligned (t : HashTable F) : Prop :=
  t.controls.length ≤ t.inputs.length ∧ t.domain.length ≤ t.inputs.length ∧
    t.checks.length ≤ t.inputs.length

theorem streamInputs_ok {t t' : HashTable F} {src : List (F × F)} {ck : Option F} {c s : ℕ}
    (h : t.streamInputsWithCheck src ck c s = .ok t') :
    src ≠ [] ∧ (t.inputs ++ src).length = t'.controls.length ∧
    t' = { inputs := t.inputs ++ src
           controls := t.controls ++ successorsTake (nextControl s) src.length (some c)
           checks := resize t.checks ((t.inputs ++ src).length - 1) none ++ [ck]
           domain := resize t.domain (t.inputs ++ src).length none } := by
  unfold streamInputsWithCheck at h
  split at h
  · cases h
  · rename_i h1
    simp only at h
    split at h
    · cases h
    · split at h
      · cases h
      · rename_i h2 h3
        cases h
        refine ⟨fun e => h1 (by rw [e]; rfl), ?_, rfl⟩
        simpa using h3

/-- What one call does to an aligned table: everything already there stays, new entries are appended,
and the table stays aligned. -/
theorem run_step {t t' : HashTable F} (c : Call F) (ha : Aligned t) (h : c.run t = .ok t') :
    Aligned t' ∧ t.inputs <+: t'.inputs ∧ t.controls <+: t'.controls ∧ t.domain <+: t'.domain ∧
      t.checks <+: t'.checks := by
  obtain ⟨h1, h2, h3⟩ := ha
  have stream : ∀ src ck c s, t.streamInputsWithCheck src ck c s = .ok t' → Aligned t' ∧
      t.inputs <+: t'.inputs ∧ t.controls <+: t'.controls ∧ t.domain <+: t'.domain ∧
      t.checks <+: t'.checks := by
    intro src ck c s h
    obtain ⟨hne, hlen, rfl⟩ := streamInputs_ok h
    have hpos := List.length_pos_of_ne_nil hne
    simp only [List.length_append] at hlen
    refine ⟨⟨by simp only [List.length_append]; omega, by simp [length_resize], ?_⟩, ?_, ?_, ?_, ?_⟩
    · simp only [List.length_append, length_resize, List.length_cons, List.length_nil]; omega
    · simp
    · simp
    · simp only
      rw [resize_prefix _ _ _ (by simp only [List.length_append]; omega)]; simp
    · simp only
      rw [resize_prefix _ _ _ (by simp only [List.length_append]; omega), List.append_assoc]; simp
  cases c with
  | constantInputs src =>
    simp only [Call.run, constantInputs] at h
    cases h
    refine ⟨⟨?_, ?_, ?_⟩, by simp, by simp, by simp, by simp⟩ <;>
      simp only [List.length_append] <;> omega
  | constantInputsWithCheck src =>
    simp only [Call.run, constantInputsWithCheck_eq] at h
    cases h
    refine ⟨⟨?_, ?_, ?_⟩, by simp, by simp, by simp, ?_⟩
    · simp only [List.length_append, List.length_replicate, List.length_map]; omega
    · simp only [List.length_append, List.length_map]; omega
    · simp [length_resize]
    · simp only
      rw [resize_prefix _ _ _ h3, List.append_assoc]; simp
  | fixedInputs src =>
    simp only [Call.run, fixedInputs_eq] at h
    cases h
    refine ⟨⟨?_, ?_, ?_⟩, by simp, ?_, ?_, ?_⟩
    · simp [length_resize]
    · simp [length_resize]
    · simp [length_resize]
    all_goals
      simp only
      rw [resize_prefix _ _ _ (by assumption), List.append_assoc]; simp
  | streamInputs src c s => exact stream _ _ _ _ h
  | streamInputsWithCheck src ck c s => exact stream _ _ _ _ h

theorem runCalls_append (t : HashTable F) (cs cs' : List (Call F)) :
    runCalls t (cs ++ cs') = (runCalls t cs).bind fun t => runCalls t cs' := by
  induction cs generalizing t with
  | nil => rfl
  | cons c cs ih =>
    simp only [List.cons_append, runCalls, bind]
    cases c.run t with
    | error e => rfl
    | ok t' => exact ih t'

theorem aligned_runCalls {t t' : HashTable F} (cs : List (Call F)) (ha : Aligned t)
    (h : runCalls t cs = .ok t') : Aligned t' := by
  induction cs generalizing t with
  | nil => cases h; exact ha
  | cons c cs ih =>
    simp only [runCalls, bind] at h
    cases hc : c.run t with
    | error e => rw [hc] at h; cases h
    | ok t₁ =>
      rw [hc] at h
      exact ih (run_step c ha hc).1 h

theorem aligned_empty : Aligned (HashTable.empty : HashTable F) := by simp [Aligned, HashTable.empty]

/-- **C38.** After any sequence of builder calls on an empty table that did not panic, controls,
domains and checks are no longer than inputs; any further call keeps everything that is already
there as a prefix (so no resize ever drops an entry), and `fixed_inputs` and the stream calls leave all four
vectors with equal lengths. -/
theorem C38_builder_aligned (calls : List (Call F)) (t : HashTable F)
    (h : runCalls HashTable.empty calls = .ok t) :
    (t.controls.length ≤ t.inputs.length ∧ t.domain.length ≤ t.inputs.length ∧
      t.checks.length ≤ t.inputs.length) ∧
    ∀ (c : Call F) (t' : HashTable F), c.run t = .ok t' →
      (t.inputs <+: t'.inputs ∧ t.controls <+: t'.controls ∧ t.domain <+: t'.domain ∧
        t.checks <+: t'.checks) ∧
      ((∃ src, c = .fixedInputs src) ∨ (∃ src k s, c = .streamInputs src k s) ∨
          (∃ src ck k s, c = .streamInputsWithCheck src ck k s) →
        t'.controls.length = t'.inputs.length ∧ t'.domain.length = t'.inputs.length ∧
          t'.checks.length = t'.inputs.length) := by
  have ha := aligned_runCalls calls aligned_empty h
  refine ⟨ha, fun c t' hc => ⟨(run_step c ha hc).2, ?_⟩⟩
  have stream : ∀ src ck c s, t.streamInputsWithCheck src ck c s = .ok t' →
      t'.controls.length = t'.inputs.length ∧ t'.domain.length = t'.inputs.length ∧
          t'.checks.length = t'.inputs.length := by
    intro src ck c s h
    obtain ⟨hne, hlen, rfl⟩ := streamInputs_ok h
    have hpos := List.length_pos_of_ne_nil hne
    refine ⟨hlen.symm, by simp [length_resize], ?_⟩
    simp only [List.length_append, length_resize, List.length_cons, List.length_nil]; omega
  rintro (⟨src, rfl⟩ | ⟨src, k, s, rfl⟩ | ⟨src, ck, k, s, rfl⟩)
  · simp only [Call.run, fixedInputs_eq] at hc
    cases hc
    simp [length_resize]
  · exact stream _ _ _ _ hc
  · exact stream _ _ _ _ hc

/-- C38, contents: which rows each call appends, after the defaults that align a shorter
vector. -/
theorem C38_contents (calls : List (Call F)) (t : HashTable F)
    (h : runCalls HashTable.empty calls = .ok t) :
    (∀ src, ∃ t', (Call.constantInputs src).run t = .ok t' ∧ t'.inputs = t.inputs ++ src ∧
      t'.controls = t.controls ∧ t'.domain = t.domain ∧ t'.checks = t.checks) ∧
    (∀ src, ∃ t', (Call.constantInputsWithCheck src).run t = .ok t' ∧
      t'.inputs = t.inputs ++ src.map (fun x => (x.1, x.2.1)) ∧
      t'.controls = t.controls ++ List.replicate src.length 0 ∧ t'.domain = t.domain ∧
      t'.checks = t.checks ++ List.replicate (t.inputs.length - t.checks.length) none ++
        src.map (fun x => some x.2.2)) ∧
    (∀ src, ∃ t', (Call.fixedInputs src).run t = .ok t' ∧
      t'.inputs = t.inputs ++ src.map (fun x => x.1) ∧
      t'.controls = t.controls ++ List.replicate (t'.inputs.length - t.controls.length) 0 ∧
      t'.domain = t.domain ++ List.replicate (t.inputs.length - t.domain.length) none ++
        src.map (fun x => some x.2.1) ∧
      t'.checks = t.checks ++ List.replicate (t.inputs.length - t.checks.length) none ++
        src.map (fun x => x.2.2)) ∧
    (∀ src ck k s t', (Call.streamInputsWithCheck src ck k s).run t = .ok t' →
      t'.inputs = t.inputs ++ src ∧
      t'.domain = t.domain ++ List.replicate (t'.inputs.length - t.domain.length) none ∧
      t'.checks = t.checks ++ List.replicate (t'.inputs.length - 1 - t.checks.length) none ++ [ck]) ∧
    (∀ src k s, (Call.streamInputs src k s).run t =
      (Call.streamInputsWithCheck src none k s).run t) := by
  obtain ⟨h1, h2, h3⟩ := aligned_runCalls calls aligned_empty h
  refine ⟨fun src => ⟨_, rfl, rfl, rfl, rfl, rfl⟩, fun src => ⟨_, rfl, ?_⟩, fun src => ⟨_, rfl, ?_⟩,
    fun src ck k s t' hc => ?_, fun _ _ _ => rfl⟩
  · rw [constantInputsWithCheck_eq]
    exact ⟨rfl, rfl, rfl, by rw [resize_prefix _ _ _ h3]⟩
  · rw [fixedInputs_eq]
    refine ⟨rfl, ?_, by rw [resize_prefix _ _ _ h2], by rw [resize_prefix _ _ _ h3]⟩
    simp only
    rw [resize_prefix _ _ _ h1, List.append_assoc, List.replicate_append_replicate]
    congr 2
    simp only [List.length_append, List.length_map]
    omega
  · obtain ⟨hne, hlen, rfl⟩ := streamInputs_ok hc
    have hpos := List.length_pos_of_ne_nil hne
    refine ⟨rfl, ?_, ?_⟩
    · simp only
      rw [resize_prefix _ _ _ (by simp only [List.length_append]; omega)]
    · simp only
      rw [resize_prefix _ _ _ (by simp only [List.length_append]; omega)]

/- A sequence of all five calls that does not panic. -/
example : ∃ t : HashTable ℕ, runCalls HashTable.empty
    [.constantInputs [(1, 2)], .constantInputsWithCheck [(3, 4, 5)], .fixedInputs [((6, 7), 8, none)],
      .streamInputs [(9, 10), (11, 12)] 45 32, .streamInputsWithCheck [(13, 14)] (some 15) 3 32] =
      .ok t ∧ t.controls = [0, 0, 0, 45, 13, 3] ∧
      t.checks = [none, some 5, none, none, none, some 15] ∧
      t.domain = [none, none, some 8, none, none, none] := ⟨_, rfl, rfl, rfl, rfl⟩

/-! ### C39 -/

/-- Number of rows a message of `c` units takes at `step` units per row: at least one. -/
def rowsFor (c step : ℕ) : ℕ := max 1 ((c + step - 1) / step)

theorem rowsFor_le {c step : ℕ} (hs : 0 < step) (h : c ≤ step) : rowsFor c step = 1 := by
  unfold rowsFor
  have : (c + step - 1) / step ≤ 1 := by
    rw [Nat.div_le_iff_le_mul_add_pred hs]; omega
  omega

theorem rowsFor_gt {c step : ℕ} (hs : 0 < step) (h : step < c) :
    rowsFor c step = rowsFor (c - step) step + 1 := by
  unfold rowsFor
  have e : (c + step - 1) / step = (c - step + step - 1) / step + 1 := by
    have : c + step - 1 = (c - step + step - 1) + step := by omega
    rw [this, Nat.add_div_right _ hs]
  have : 1 ≤ (c - step + step - 1) / step := by
    rw [Nat.le_div_iff_mul_le hs]; omega
  omega

theorem successorsTake_eq {step : ℕ} (hs : 0 < step) (n c : ℕ) :
    successorsTake (nextControl step) n (some c) =
      (List.range (min n (rowsFor c step))).map fun i => c - i * step := by
  induction n generalizing c with
  | zero => simp [successorsTake]
  | succ n ih =>
    rw [successorsTake]
    by_cases h : step < c
    · rw [nextControl, if_pos h, ih, rowsFor_gt hs h, Nat.add_min_add_right, List.range_succ_eq_map]
      simp only [List.map_cons, List.map_map, Nat.zero_mul, Nat.sub_zero, List.cons.injEq, true_and]
      apply List.map_congr_left
      intro i _
      simp only [Function.comp_apply, Nat.succ_eq_add_one, Nat.add_mul, Nat.one_mul]
      omega
    · rw [nextControl, if_neg (by omega), rowsFor_le hs (by omega)]
      have : successorsTake (nextControl step) n none = [] := by cases n <;> rfl
      rw [this]
      simp

/-- The control of the last row. -/
theorem last_control {c step : ℕ} (hs : 0 < step) : ∀ n, 0 < n → n ≤ rowsFor c step →
    (c - (n - 1) * step ≤ step ↔ n = rowsFor c step) := by
  intro n h0 hn
  unfold rowsFor at *
  have hd := Nat.div_add_mod (c + step - 1) step
  have hm := Nat.mod_lt (c + step - 1) hs
  generalize (c + step - 1) / step = q at *
  generalize (c + step - 1) % step = m at *
  obtain ⟨k, rfl⟩ : ∃ k, n = k + 1 := ⟨n - 1, by omega⟩
  simp only [Nat.add_sub_cancel]
  constructor
  · intro h
    have h2 : c ≤ step + k * step := by omega
    have : q ≤ k + 1 := by
      by_contra hlt
      have : (k + 2) * step ≤ step * q := by
        rw [Nat.mul_comm step q]; exact Nat.mul_le_mul_right _ (by omega)
      have e : (k + 2) * step = step + step + k * step := by ring
      omega
    omega
  · intro h
    have : q ≤ k + 1 := by omega
    have : step * q ≤ (k + 1) * step := by
      rw [Nat.mul_comm step q]; exact Nat.mul_le_mul_right _ this
    have e : (k + 1) * step = k * step + step := by ring
    omega

/-- **C39.** On a table whose controls are aligned with its inputs, and `step > 0`, a stream call
panics iff the stream is empty or has more pairs than `max 1 ⌈ctrl/step⌉`; otherwise it appends the
pairs with controls `ctrl, ctrl - step, ctrl - 2*step, ...`, and the last control is at most `step`
iff exactly `max 1 ⌈ctrl/step⌉` pairs were given (shorter streams are accepted). -/
theorem C39_stream_lengths (t : HashTable F) (halign : t.controls.length = t.inputs.length)
    (src : List (F × F)) (check : Option F) (ctrl step : ℕ) (hs : 0 < step) :
    ((∃ e, t.streamInputsWithCheck src check ctrl step = .error e) ↔
      src = [] ∨ max 1 ((ctrl + step - 1) / step) < src.length) ∧
    ∀ t', t.streamInputsWithCheck src check ctrl step = .ok t' →
      t'.inputs = t.inputs ++ src ∧
      t'.controls = t.controls ++ (List.range src.length).map (fun i => ctrl - i * step) ∧
      (∀ last, t'.controls.getLast? = some last →
        (last ≤ step ↔ src.length = max 1 ((ctrl + step - 1) / step))) := by
  have hK : max 1 ((ctrl + step - 1) / step) = rowsFor ctrl step := rfl
  rw [hK]
  have hlen : (successorsTake (nextControl step) src.length (some ctrl)).length =
      min src.length (rowsFor ctrl step) := by rw [successorsTake_eq hs]; simp
  constructor
  · constructor
    · rintro ⟨e, he⟩
      by_contra hcon
      push Not at hcon
      obtain ⟨h1, h2⟩ := hcon
      have : src.length ≠ 0 := by simpa using h1
      unfold streamInputsWithCheck at he
      rw [if_neg this] at he
      simp only [hlen, List.length_append, halign] at he
      rw [if_neg (by omega), if_neg (by omega)] at he
      cases he
    · intro h
      unfold streamInputsWithCheck
      rcases h with rfl | h
      · exact ⟨_, rfl⟩
      · split
        · exact ⟨_, rfl⟩
        · simp only [hlen]
          rw [if_pos (by omega)]
          exact ⟨_, rfl⟩
  · intro t' h
    obtain ⟨hne, hl, rfl⟩ := streamInputs_ok h
    have hpos := List.length_pos_of_ne_nil hne
    simp only [List.length_append, hlen, halign] at hl
    have hle : src.length ≤ rowsFor ctrl step := by omega
    have e : successorsTake (nextControl step) src.length (some ctrl) =
        (List.range src.length).map fun i => ctrl - i * step := by
      rw [successorsTake_eq hs, min_eq_left hle]
    refine ⟨rfl, by simp only; rw [e], fun last hlast => ?_⟩
    simp only [e] at hlast
    obtain ⟨k, hk⟩ : ∃ k, src.length = k + 1 := ⟨src.length - 1, by omega⟩
    rw [hk, List.range_succ, List.map_append, ← List.append_assoc, List.map_singleton,
      List.getLast?_append] at hlast
    simp only [List.getLast?_singleton, Option.some_or, Option.some.injEq] at hlast
    have := last_control (c := ctrl) hs src.length hpos hle
    rw [hk, Nat.add_sub_cancel, hlast] at this
    rw [hk]; exact this

/-- The same for `stream_inputs`, which is the call without a check. -/
theorem C39_stream_inputs (t : HashTable F) (halign : t.controls.length = t.inputs.length)
    (src : List (F × F)) (ctrl step : ℕ) (hs : 0 < step) :
    (∃ e, t.streamInputs src ctrl step = .error e) ↔
      src = [] ∨ max 1 ((ctrl + step - 1) / step) < src.length :=
  (C39_stream_lengths t halign src none ctrl step hs).1

/- 45 units at 32 per row: two rows, one row is accepted but leaves the stream open, three panic. -/
example : (HashTable.empty : HashTable ℕ).controls.length = (HashTable.empty : HashTable ℕ).inputs.length ∧
    max 1 ((45 + 32 - 1) / 32) = 2 ∧
    (∃ t, (HashTable.empty : HashTable ℕ).streamInputs [(1, 2)] 45 32 = .ok t ∧ t.controls = [45]) ∧
    (∃ t, (HashTable.empty : HashTable ℕ).streamInputs [(1, 2), (3, 4)] 45 32 = .ok t ∧
      t.controls = [45, 13]) ∧
    (HashTable.empty : HashTable ℕ).streamInputs [(1, 2), (3, 4), (5, 6)] 45 32 =
      .error .streamTooLong := ⟨rfl, rfl, ⟨_, rfl, rfl⟩, ⟨_, rfl, rfl⟩, rfl⟩

/-! ### C40 -/

/-- **C40.** After `constant_inputs` of at least one row, and any number of further `constant_inputs` and
`constant_inputs_with_check` calls, every stream call panics; a `fixed_inputs` call (even of no
rows) makes streams of the right length possible again. -/
theorem C40_stream_after_constant (before : List (Call F)) (t : HashTable F)
    (h : runCalls HashTable.empty before = .ok t) (rows : List (F × F)) (hrows : rows ≠ [])
    (between : List (Call F))
    (hbetween : ∀ c ∈ between, (∃ s, c = .constantInputs s) ∨ ∃ s, c = .constantInputsWithCheck s)
    (src : List (F × F)) (check : Option F) (ctrl step : ℕ) :
    (∃ e, runCalls t (.constantInputs rows :: between ++
      [.streamInputsWithCheck src check ctrl step]) = .error e) ∧
    ∀ fixed, 0 < step → src ≠ [] → src.length ≤ max 1 ((ctrl + step - 1) / step) →
      ∃ t', runCalls t (.constantInputs rows :: between ++
        [.fixedInputs fixed, .streamInputsWithCheck src check ctrl step]) = .ok t' := by
  have ha := aligned_runCalls before aligned_empty h
  have key : ∃ t₂, runCalls t (.constantInputs rows :: between) = .ok t₂ ∧ Aligned t₂ ∧
      t₂.controls.length < t₂.inputs.length := by
    have h0 : Aligned (t.constantInputs rows) :=
      (run_step (t' := t.constantInputs rows) (.constantInputs rows) ha rfl).1
    have h1 : (t.constantInputs rows).controls.length < (t.constantInputs rows).inputs.length := by
      have := List.length_pos_of_ne_nil hrows
      obtain ⟨a1, -⟩ := ha
      simp only [constantInputs, List.length_append]; omega
    have hr : runCalls t (.constantInputs rows :: between) =
      runCalls (t.constantInputs rows) between := rfl
    rw [hr]
    generalize t.constantInputs rows = t₁ at h0 h1
    clear hr
    induction between generalizing t₁ with
    | nil => exact ⟨t₁, rfl, h0, h1⟩
    | cons c cs ih =>
      rcases hbetween c (by simp) with ⟨s, rfl⟩ | ⟨s, rfl⟩
      · refine ih (fun c hc => hbetween c (by simp [hc])) _ (run_step (t' := t₁.constantInputs s) (.constantInputs s) h0 rfl).1 ?_
        simp only [constantInputs, List.length_append]; omega
      · refine ih (fun c hc => hbetween c (by simp [hc])) _
          (run_step (t' := t₁.constantInputsWithCheck s) (.constantInputsWithCheck s) h0 rfl).1 ?_
        rw [constantInputsWithCheck_eq]
        simp only [List.length_append, List.length_replicate, List.length_map]; omega
  obtain ⟨t₂, hr, ha2, hlt⟩ := key
  constructor
  · rw [runCalls_append, hr]
    have : ∃ e, t₂.streamInputsWithCheck src check ctrl step = .error e := by
      unfold streamInputsWithCheck
      split
      · exact ⟨_, rfl⟩
      · simp only
        split
        · exact ⟨_, rfl⟩
        · rename_i h2
          rw [if_pos ?_]
          · exact ⟨_, rfl⟩
          · simp only [ne_eq, not_not] at h2
            simp only [List.length_append, ← h2]; omega
    obtain ⟨e, he⟩ := this
    refine ⟨e, ?_⟩
    show (runCalls t₂ [Call.streamInputsWithCheck src check ctrl step]) = _
    simp only [runCalls, Call.run, he, bind, Except.bind]
  · intro fixed hs hne hle
    rw [runCalls_append, hr]
    show ∃ t', runCalls t₂ [.fixedInputs fixed, .streamInputsWithCheck src check ctrl step] = .ok t'
    simp only [runCalls, Call.run, bind, Except.bind]
    have hal : (t₂.fixedInputs fixed).controls.length = (t₂.fixedInputs fixed).inputs.length := by
      rw [fixedInputs_eq]; simp [length_resize]
    cases hc : (t₂.fixedInputs fixed).streamInputsWithCheck src check ctrl step with
    | ok t' => exact ⟨t', rfl⟩
    | error e =>
      rcases (C39_stream_lengths _ hal src check ctrl step hs).1.mp ⟨e, hc⟩ with h' | h'
      · exact absurd h' hne
      · omega

example : ∃ t : HashTable ℕ, runCalls HashTable.empty [.constantInputs [(1, 2)]] = .ok t ∧
    runCalls t [.constantInputs [(1, 2)], .constantInputsWithCheck [(1, 2, 3)],
      .streamInputs [(1, 2)] 3 32] = .error .controlsMisaligned := ⟨_, rfl, rfl⟩

end Props
