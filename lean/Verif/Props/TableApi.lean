import Verif.Props.TableLoad
import Verif.Props.Builder
import Mathlib.Data.List.GetD

/-!
# Tables built by the API are accepted: C33
-/

set_option linter.unusedVariables false

namespace Props
open Halo2 Circuit Circuit.Table Circuit.HashTable Base.Bn256

/-- A hash that a caller of the builder asks for. -/
structure Job where
  words : List (Fr × Fr)
  ctrl : ℕ
  dom : Fr
  check : Option Fr

/-- The hashes requested by a builder call. -/
def jobs : Call Fr → List Job
  | .constantInputs src => src.map fun w => ⟨[w], 0, 0, none⟩
  | .constantInputsWithCheck src => src.map fun x => ⟨[(x.1, x.2.1)], 0, 0, some x.2.2⟩
  | .fixedInputs src => src.map fun x => ⟨[x.1], 0, x.2.1, x.2.2⟩
  | .streamInputs src c _ => [⟨src, c, 0, none⟩]
  | .streamInputsWithCheck src ck c _ => [⟨src, c, 0, ck⟩]

/-- The words of a job, one after the other. -/
def Job.flat (j : Job) : List Fr := j.words.flatMap fun w => [w.1, w.2]

/-- The digest of a job: sponge over the words, started with `ctrl·SPEC + domain`. -/
noncomputable def Job.digest (legacy : Bool) (j : Job) : Fr :=
  Spec.spongeHash (Spec.onTriples permBn) (((j.ctrl * Base.domainSpec legacy : ℕ) : Fr) + j.dom) j.flat

/-- A job that can be proved: as many words as its control asks for, no domain together with several
rows, and the right check (if any). -/
structure Job.OK (legacy : Bool) (STEP : ℕ) (j : Job) : Prop where
  len : j.words.length = max 1 ((j.ctrl + STEP - 1) / STEP)
  dom : 1 < j.words.length → j.dom = 0
  check : ∀ ck, j.check = some ck → ck = j.digest legacy

/-- The digest of a job in terms of the crate's hash functions. -/
theorem Job.digest_eq (short legacy : Bool) (j : Job) :
    (j.dom = 0 → j.words ≠ [] → j.flat.length < 2 ^ 64 →
      hashMsgFr short legacy j.flat (some (j.ctrl * Base.domainSpec legacy)) = .ok (j.digest legacy)) ∧
    (∀ a b, j.ctrl = 0 → j.words = [(a, b)] →
      hashWithDomainFr short ![a, b] j.dom = .ok (j.digest legacy)) := by
  refine ⟨fun h1 h2 h3 => ?_, fun a b h1 h2 => ?_⟩
  · have hne : j.flat ≠ [] := by
      unfold Job.flat
      cases hw : j.words with
      | nil => exact absurd hw h2
      | cons w ws => simp
    rw [(C04_C05_bn254 short legacy).2 _ _ hne h3, Option.getD_some, Job.digest, h1, add_zero]
  · refine ((C04_C05_bn254 short legacy).1 _ _ _).trans (congrArg Except.ok ?_)
    simp only [Job.digest, Job.flat, h1, h2, Spec.spongeHash, List.flatMap_cons, List.flatMap_nil,
      List.append_nil, Spec.absorbPairs, Spec.onTriples, zero_add, Nat.zero_mul, Nat.cast_zero]

/-! ## What the builder stores -/

abbrev RowT := (Fr × Fr) × ℕ × Fr × Option Fr

/-- Row `j` of a table. -/
def dataAt (t : HashTable Fr) (j : ℕ) : RowT := (rowWords t j, rowCtl t j, rowDom t j, rowCk t j)

def emptyRow : RowT := ((0, 0), 0, 0, none)

/-- Row `i` of a job. -/
def Job.row (STEP : ℕ) (b : Job) (i : ℕ) : RowT :=
  (b.words.getD i (0, 0), b.ctrl - i * STEP, if i = 0 then b.dom else 0,
    if i + 1 = b.words.length then b.check else none)

def Job.rows (STEP : ℕ) (b : Job) : List RowT := (List.range b.words.length).map (b.row STEP)

theorem Job.length_rows (STEP : ℕ) (b : Job) : (b.rows STEP).length = b.words.length := by simp [Job.rows]

theorem getD_repl {α : Type} (n : ℕ) (d : α) (j : ℕ) : (List.replicate n d).getD j d = d := by
  simp only [List.getD_eq_getElem?_getD, List.getElem?_replicate]
  split <;> rfl

theorem getD_append {α : Type} (l m : List α) (j : ℕ) (d : α) :
    (l ++ m).getD j d = if j < l.length then l.getD j d else m.getD (j - l.length) d := by
  split
  · rw [List.getD_append _ _ _ _ (by assumption)]
  · rw [List.getD_append_right _ _ _ _ (by omega)]

theorem getD_resize {α : Type} (l : List α) (n : ℕ) (d : α) (h : l.length ≤ n) (j : ℕ) :
    (resize l n d).getD j d = l.getD j d := by
  rw [resize_prefix _ _ _ h, getD_append]
  split
  · rfl
  · rw [getD_repl, List.getD_eq_default _ _ (by omega)]

theorem getD_replicate {α : Type} (l : List α) (n : ℕ) (d : α) (j : ℕ) :
    (l ++ List.replicate n d).getD j d = l.getD j d := by
  rw [getD_append]
  split
  · rfl
  · rw [getD_repl, List.getD_eq_default _ _ (by omega)]

theorem getD_components (rows : List RowT) (j : ℕ) : rows.getD j emptyRow =
    ((rows.map fun r => r.1).getD j (0, 0), (rows.map fun r => r.2.1).getD j 0,
      ((rows.map fun r => r.2.2.1).getD j 0), (rows.map fun r => r.2.2.2).getD j none) := by
  simp only [List.getD_eq_getElem?_getD, List.getElem?_map]
  cases rows[j]? <;> rfl

/-- Stream calls use the circuit's step. -/
def StepOK (STEP : ℕ) : Call Fr → Prop
  | .streamInputs _ _ step => step = STEP
  | .streamInputsWithCheck _ _ _ step => step = STEP
  | _ => True

theorem flatMap_single {α : Type} (f : α → Job) (STEP : ℕ) (l : List α) (h : ∀ a ∈ l, (f a).words.length = 1) :
    (l.map f).flatMap (Job.rows STEP) = l.map fun a => (f a).row STEP 0 := by
  induction l with
  | nil => rfl
  | cons a l ih =>
    rw [List.map_cons, List.flatMap_cons, ih fun a ha => h a (by simp [ha]), List.map_cons]
    rw [Job.rows, h a (by simp)]
    rfl

/-- One call appends the rows of its jobs. -/
theorem run_data {legacy : Bool} {STEP : ℕ} (hS : 0 < STEP) {t t' : HashTable Fr} (c : Call Fr)
    (ha : Aligned t) (h : c.run t = .ok t') (hst : StepOK STEP c)
    (hok : ∀ b ∈ jobs c, b.OK legacy STEP) :
    t'.inputs.length = t.inputs.length + ((jobs c).flatMap (Job.rows STEP)).length ∧
    ∀ j, dataAt t' j = if j < t.inputs.length then dataAt t j
      else ((jobs c).flatMap (Job.rows STEP)).getD (j - t.inputs.length) emptyRow := by
  obtain ⟨h1, h2, h3⟩ := ha
  have hctl : ∀ j, ¬ j < t.inputs.length → t.controls.getD j 0 = 0 := fun j hj =>
    List.getD_eq_default _ _ (by omega)
  have hdom : ∀ j, ¬ j < t.inputs.length → t.domain.getD j none = none := fun j hj =>
    List.getD_eq_default _ _ (by omega)
  have hck : ∀ j, ¬ j < t.inputs.length → t.checks.getD j none = none := fun j hj =>
    List.getD_eq_default _ _ (by omega)
  have hmap : ∀ (l : List (Option Fr)) (j : ℕ), (l.map fun o => o.getD 0).getD j 0 = (l.getD j none).getD 0 := by
    intro l j
    simp only [List.getD_eq_getElem?_getD, List.getElem?_map]
    cases l[j]? <;> rfl
  have stream : ∀ src ck c, (⟨src, c, 0, ck⟩ : Job).OK legacy STEP →
      t.streamInputsWithCheck src ck c STEP = .ok t' →
      t'.inputs.length = t.inputs.length + ([⟨src, c, 0, ck⟩].flatMap (Job.rows STEP)).length ∧
      ∀ j, dataAt t' j = if j < t.inputs.length then dataAt t j
        else ([⟨src, c, 0, ck⟩].flatMap (Job.rows STEP)).getD (j - t.inputs.length) emptyRow := by
    intro src ck c hb h
    obtain ⟨hne, hlen, rfl⟩ := streamInputs_ok h
    have hpos := List.length_pos_of_ne_nil hne
    have hl : src.length = rowsFor c STEP := hb.len
    have hs : successorsTake (nextControl STEP) src.length (some c) =
        (List.range src.length).map fun i => c - i * STEP := by
      rw [successorsTake_eq hS, ← hl, min_self]
    simp only [hs, List.length_append, List.length_map, List.length_range] at hlen
    have hcl : t.controls.length = t.inputs.length := by omega
    simp only [List.flatMap_cons, List.flatMap_nil, List.append_nil]
    refine ⟨by simp [Job.length_rows], fun j => ?_⟩
    rw [getD_components]
    simp only [dataAt, rowWords, rowCtl, rowDom, rowCk, hs]
    have e4 : ((⟨src, c, 0, ck⟩ : Job).rows STEP).map (fun r => r.1) = src := by
      simp only [Job.rows, List.map_map]
      refine List.ext_getElem (by simp) fun i h1 h2 => ?_
      simp [Job.row, h2]
    have e5 : ((⟨src, c, 0, ck⟩ : Job).rows STEP).map (fun r => r.2.1) =
        (List.range src.length).map fun i => c - i * STEP := by
      simp only [Job.rows, List.map_map]; rfl
    have e6 : ((⟨src, c, 0, ck⟩ : Job).rows STEP).map (fun r => r.2.2.1) = List.replicate src.length 0 := by
      simp only [Job.rows, List.map_map]
      refine List.ext_getElem (by simp) fun i h1 h2 => ?_
      simp [Job.row]
    have e7 : ((⟨src, c, 0, ck⟩ : Job).rows STEP).map (fun r => r.2.2.2) =
        List.replicate (src.length - 1) none ++ [ck] := by
      simp only [Job.rows, List.map_map]
      obtain ⟨n, hn⟩ : ∃ n, src.length = n + 1 := ⟨src.length - 1, by omega⟩
      refine List.ext_getElem (by simp; omega) fun i h1 h2 => ?_
      simp only [hn, List.length_map, List.length_range] at h1
      simp only [List.getElem_map, List.getElem_range, Function.comp_apply, Job.row, hn, Nat.add_sub_cancel]
      by_cases hi : i = n
      · subst hi
        rw [if_pos rfl, List.getElem_append_right (by simp)]
        simp
      · rw [if_neg (by omega), List.getElem_append_left (by simp; omega)]
        simp
    rw [e4, e5, e6, e7, getD_append t.inputs, getD_append t.controls, hcl,
      getD_resize _ _ _ (by simp only [List.length_append]; omega)]
    have hr : resize t.checks ((t.inputs ++ src).length - 1) none ++ [ck] =
        resize t.checks t.inputs.length none ++ (List.replicate (src.length - 1) none ++ [ck]) := by
      rw [resize_prefix _ _ _ (by simp only [List.length_append]; omega), resize_prefix _ _ _ h3,
        List.append_assoc, List.append_assoc, ← List.append_assoc (List.replicate _ _),
        List.replicate_append_replicate]
      congr 3
      simp only [List.length_append]
      omega
    rw [hr, getD_append, length_resize, getD_resize _ _ _ h3]
    split
    · rfl
    · rename_i hj
      rw [hdom j hj]
      have : (List.replicate src.length (0 : Fr)).getD (j - t.inputs.length) 0 = 0 :=
        getD_repl ..
      rw [this]
      rfl
  cases c with
  | constantInputs src =>
    simp only [Call.run, constantInputs] at h
    cases h
    simp only [jobs]
    rw [flatMap_single _ _ _ (by simp)]
    refine ⟨by simp, fun j => ?_⟩
    rw [getD_components]
    simp only [dataAt, rowWords, rowCtl, rowDom, rowCk, List.map_map, getD_append t.inputs]
    split
    · rfl
    · rename_i hj
      rw [hctl j hj, hdom j hj, hck j hj]
      simp only [Function.comp_def, Job.row, List.getD_cons_zero, List.map_id', Nat.zero_mul, Nat.sub_zero,
        if_true, List.length_cons, List.length_nil, zero_add, List.map_const', getD_repl]
      rfl
  | constantInputsWithCheck src =>
    simp only [Call.run, constantInputsWithCheck_eq] at h
    cases h
    simp only [jobs]
    rw [flatMap_single _ _ _ (by simp)]
    refine ⟨by simp, fun j => ?_⟩
    rw [getD_components]
    simp only [dataAt, rowWords, rowCtl, rowDom, rowCk, List.map_map, getD_append t.inputs, getD_replicate]
    rw [getD_append (resize _ _ _), length_resize, getD_resize _ _ _ h3]
    split
    · rfl
    · rename_i hj
      rw [hctl j hj, hdom j hj]
      simp only [Function.comp_def, Job.row, List.getD_cons_zero, Nat.zero_mul, Nat.sub_zero,
        if_true, List.length_cons, List.length_nil, zero_add, List.map_const', getD_repl]
      rfl
  | fixedInputs src =>
    simp only [Call.run, fixedInputs_eq] at h
    cases h
    simp only [jobs]
    rw [flatMap_single _ _ _ (by simp)]
    refine ⟨by simp, fun j => ?_⟩
    rw [getD_components]
    simp only [dataAt, rowWords, rowCtl, rowDom, rowCk, List.map_map, getD_append t.inputs, getD_replicate]
    rw [getD_append (resize t.checks _ _), getD_append (resize t.domain _ _), length_resize, length_resize,
      getD_resize _ _ _ h1, getD_resize _ _ _ h2, getD_resize _ _ _ h3]
    split
    · rfl
    · rename_i hj
      rw [hctl j hj]
      simp only [Function.comp_def, Job.row, List.getD_cons_zero, Nat.zero_mul, Nat.sub_zero,
        if_true, List.length_cons, List.length_nil, zero_add, List.map_const', getD_repl]
      rw [← hmap, List.map_map]
      rfl
  | streamInputs src c s =>
    obtain rfl : s = STEP := hst
    exact stream src none c (hok _ (by simp [jobs])) h
  | streamInputsWithCheck src ck c s =>
    obtain rfl : s = STEP := hst
    exact stream src ck c (hok _ (by simp [jobs])) h

/-- The table holds the rows of the jobs, in order. -/
theorem runCalls_data {legacy : Bool} {STEP : ℕ} (hS : 0 < STEP) (calls : List (Call Fr)) {t t' : HashTable Fr}
    (ha : Aligned t) (h : runCalls t calls = .ok t') (hst : ∀ c ∈ calls, StepOK STEP c)
    (hok : ∀ b ∈ calls.flatMap jobs, b.OK legacy STEP) :
    t'.inputs.length = t.inputs.length + ((calls.flatMap jobs).flatMap (Job.rows STEP)).length ∧
    ∀ j, dataAt t' j = if j < t.inputs.length then dataAt t j
      else ((calls.flatMap jobs).flatMap (Job.rows STEP)).getD (j - t.inputs.length) emptyRow := by
  induction calls generalizing t with
  | nil =>
    obtain rfl : t = t' := Except.ok.inj h
    refine ⟨by simp, fun j => ?_⟩
    split
    · rfl
    · obtain ⟨h1, h2, h3⟩ := ha
      have : t.inputs.length ≤ j := by omega
      simp only [dataAt, rowWords, rowCtl, rowDom, rowCk]
      rw [List.getD_eq_default _ _ this, List.getD_eq_default _ _ (by omega : t.controls.length ≤ j),
        List.getD_eq_default _ _ (by omega : t.domain.length ≤ j),
        List.getD_eq_default _ _ (by omega : t.checks.length ≤ j)]
      rfl
  | cons c cs ih =>
    simp only [runCalls, bind] at h
    cases hc : c.run t with
    | error e => rw [hc] at h; cases h
    | ok t₁ =>
      rw [hc] at h
      obtain ⟨a1, a2⟩ := run_data (legacy := legacy) hS c ha hc (hst c (by simp))
        (fun b hb => hok b (by simp only [List.flatMap_cons, List.mem_append]; exact Or.inl hb))
      obtain ⟨b1, b2⟩ := ih (run_step c ha hc).1 h (fun c hc => hst c (by simp [hc]))
        (fun b hb => hok b (by simp only [List.flatMap_cons, List.mem_append]; exact Or.inr hb))
      simp only [List.flatMap_cons, List.flatMap_append, List.length_append]
      refine ⟨by omega, fun j => ?_⟩
      rw [b2, getD_append, a1]
      by_cases h1 : j < t.inputs.length
      · rw [if_pos (by omega), if_pos h1, a2, if_pos h1]
      · rw [if_neg h1]
        by_cases h2 : j < t.inputs.length + ((jobs c).flatMap (Job.rows STEP)).length
        · rw [if_pos h2, if_pos (by omega), a2, if_neg h1]
        · rw [if_neg h2, if_neg (by omega)]
          congr 1
          omega

/-! ## Blocks of jobs -/

section Blocks
variable {legacy : Bool} {STEP : ℕ} (hS : 0 < STEP) {js : List Job} (hok : ∀ b ∈ js, b.OK legacy STEP)
  {t : HashTable Fr} (hd : ∀ j, dataAt t j = (js.flatMap (Job.rows STEP)).getD j emptyRow)
include hS hok hd

/-- First row of the job that follows the jobs `pre`. -/
abbrev off (STEP : ℕ) (pre : List Job) : ℕ := (pre.flatMap (Job.rows STEP)).length

omit hS hok in
theorem data_job {pre post : List Job} {b : Job} (he : js = pre ++ b :: post) (i : ℕ) (hi : i < b.words.length) :
    dataAt t (off STEP pre + i) = b.row STEP i := by
  rw [hd, he, List.flatMap_append, List.flatMap_cons, getD_append, if_neg (by simp [off]), Nat.add_sub_cancel_left,
    getD_append, if_pos (by rw [Job.length_rows]; exact hi)]
  simp [Job.rows, hi]

omit hS hok hd in
theorem job_of_row (js : List Job) (j : ℕ) (hj : j < (js.flatMap (Job.rows STEP)).length) :
    ∃ pre b post i, js = pre ++ b :: post ∧ i < b.words.length ∧ j = off STEP pre + i := by
  induction js generalizing j with
  | nil => simp at hj
  | cons b js ih =>
    rw [List.flatMap_cons, List.length_append, Job.length_rows] at hj
    by_cases h : j < b.words.length
    · exact ⟨[], b, js, j, rfl, h, by simp [off]⟩
    · obtain ⟨pre, b', post, i, rfl, h1, h2⟩ := ih (j - b.words.length) (by omega)
      refine ⟨b :: pre, b', post, i, rfl, h1, ?_⟩
      simp only [off, List.flatMap_cons, List.length_append, Job.length_rows] at h2 ⊢
      omega

omit hd in
theorem ctrl_le {pre post : List Job} {b : Job} (he : js = pre ++ b :: post) (i : ℕ) (hi : i < b.words.length) :
    b.ctrl - i * STEP ≤ STEP ↔ i + 1 = b.words.length := by
  have hb := hok b (by simp [he])
  have hl : b.words.length = rowsFor b.ctrl STEP := hb.len
  have := last_control (c := b.ctrl) hS (i + 1) (by omega) (by omega)
  rw [Nat.add_sub_cancel, ← hl] at this
  exact this

omit hS hd in
theorem job_pos {b : Job} (hb : b ∈ js) : 0 < b.words.length := by
  rw [(hok b hb).len]; omega

/-- The first row of a job starts a block. -/
theorem job_start {pre post : List Job} {b : Job} (he : js = pre ++ b :: post) :
    off STEP pre = 0 ∨ rowCtl t (off STEP pre - 1) ≤ STEP := by
  rcases List.eq_nil_or_concat pre with rfl | ⟨pre', b', rfl⟩
  · exact Or.inl rfl
  · right
    have he' : js = pre' ++ b' :: (b :: post) := by rw [he]; simp
    have hpos := job_pos hok (b := b') (by rw [he']; simp)
    have ho : off STEP (pre' ++ [b']) - 1 = off STEP pre' + (b'.words.length - 1) := by
      simp only [off, List.flatMap_append, List.flatMap_cons, List.flatMap_nil, List.append_nil,
        List.length_append, Job.length_rows]
      omega
    rw [List.concat_eq_append, ho]
    have h := congrArg (fun r : RowT => r.2.1) (data_job hd he' (b'.words.length - 1) (by omega))
    simp only [dataAt, Job.row] at h
    rw [h, ctrl_le hS hok he' _ (by omega)]
    omega

theorem job_inside {pre post : List Job} {b : Job} (he : js = pre ++ b :: post) (i : ℕ)
    (hi : i + 1 < b.words.length) : STEP < rowCtl t (off STEP pre + i) := by
  have h := congrArg (fun r : RowT => r.2.1) (data_job hd he i (by omega))
  simp only [dataAt, Job.row] at h
  rw [h]
  have := ctrl_le hS hok he i (by omega)
  omega

omit hS hok in
theorem job_digest {pre post : List Job} {b : Job} (he : js = pre ++ b :: post) (m : ℕ)
    (hm : m + 1 = b.words.length) : prefixDigest legacy t (off STEP pre) m = b.digest legacy := by
  have h0 := data_job hd he 0 (by omega)
  simp only [dataAt, Job.row, Nat.add_zero, Nat.zero_mul, Nat.sub_zero, if_true, Prod.mk.injEq] at h0
  obtain ⟨-, hc, hdm, -⟩ := h0
  have hw : ∀ i < b.words.length, rowWords t (off STEP pre + i) = b.words.getD i (0, 0) := fun i hi => by
    have h := congrArg (fun r : RowT => r.1) (data_job hd he i hi)
    simpa only [dataAt, Job.row] using h
  have hflat : b.flat = [(rowWords t (off STEP pre)).1, (rowWords t (off STEP pre)).2] ++
      (List.range' 1 m).flatMap fun i => [(rowWords t (off STEP pre + i)).1, (rowWords t (off STEP pre + i)).2] := by
    have hwords : b.words = (List.range' 0 (m + 1)).map fun i => rowWords t (off STEP pre + i) := by
      refine List.ext_getElem (by simp [hm]) fun i h1 h2 => ?_
      rw [List.getElem_map, List.getElem_range', hw _ (by omega)]
      simp [h1]
    unfold Job.flat
    rw [hwords, List.range'_succ, List.map_cons, List.flatMap_cons, List.flatMap_map]
    rfl
  have hr : (List.range m).map (fun i => ((0 : Fr), rowWords t (off STEP pre + i + 1))) =
      (List.range' 1 m).map fun i => (0, (rowWords t (off STEP pre + i)).1, (rowWords t (off STEP pre + i)).2) := by
    rw [List.range'_eq_map_range, List.map_map]
    refine List.map_congr_left fun i _ => ?_
    simp only [Function.comp_apply]
    rw [show off STEP pre + (1 + i) = off STEP pre + i + 1 by omega]
  rw [prefixDigest, hr, hc, hdm, Job.digest, hflat, Spec.rowsDigest, Spec.spongeHash, Spec.absorbRows,
    absorbRows_zero _ (fun i => rowWords t (off STEP pre + i))]
  simp only [List.cons_append, List.nil_append, Spec.absorbPairs]

theorem jobs_checks (n : ℕ) : ChecksMatch legacy STEP t n := by
  intro a m _ hp ck hck
  have hlt : a + m < (js.flatMap (Job.rows STEP)).length := by
    by_contra h
    have h := congrArg (fun r : RowT => r.2.2.2) ((hd (a + m)).trans (List.getD_eq_default _ _ (by omega)))
    simp only [dataAt, emptyRow] at h
    rw [h] at hck; cases hck
  obtain ⟨pre, b, post, i, he, hi, hai⟩ := job_of_row js (a + m) hlt
  have h := congrArg (fun r : RowT => r.2.2.2) (data_job hd he i hi)
  simp only [dataAt, Job.row] at h
  rw [hai, h] at hck
  split at hck
  · rename_i hlast
    have ha : a = off STEP pre := by
      rcases lt_trichotomy a (off STEP pre) with hlt | heq | hgt
      · have h1 := hp.2 (off STEP pre - 1 - a) (by omega)
        rw [show a + (off STEP pre - 1 - a) = off STEP pre - 1 by omega] at h1
        rcases job_start hS hok hd he with h2 | h2 <;> omega
      · exact heq
      · have h1 := job_inside hS hok hd he (a - 1 - off STEP pre) (by omega)
        rw [show off STEP pre + (a - 1 - off STEP pre) = a - 1 by omega] at h1
        rcases hp.1 with h2 | h2 <;> omega
    rw [ha, job_digest hd he m (by omega)]
    exact (hok b (by simp [he])).check ck hck
  · cases hck

theorem jobs_complete {calcs : ℕ} (hc : (js.flatMap (Job.rows STEP)).length < calcs) :
    Complete STEP STEP t calcs := by
  refine ⟨fun j _ hgt => ?_, fun j hj => ?_⟩
  · have hlt : j < (js.flatMap (Job.rows STEP)).length := by
      by_contra h
      have h := congrArg (fun r : RowT => r.2.1) ((hd j).trans (List.getD_eq_default _ _ (by omega)))
      simp only [dataAt, emptyRow] at h
      omega
    obtain ⟨pre, b, post, i, he, hi, rfl⟩ := job_of_row js j hlt
    have h := congrArg (fun r : RowT => r.2.1) (data_job hd he i hi)
    simp only [dataAt, Job.row] at h
    rw [h] at hgt ⊢
    have hne : i + 1 < b.words.length := by
      have := ctrl_le hS hok he i hi
      omega
    have h' := data_job hd he (i + 1) hne
    simp only [dataAt, Job.row, Prod.mk.injEq] at h'
    rw [show off STEP pre + i + 1 = off STEP pre + (i + 1) by omega, h'.2.1, h'.2.2.1, if_neg (by omega)]
    refine ⟨?_, ?_, rfl⟩ <;> rw [Nat.succ_mul] <;> omega
  · have h := (hd j).trans (List.getD_eq_default _ _ (by omega))
    simp only [dataAt, emptyRow, Prod.mk.injEq] at h
    exact ⟨h.1, h.2.1⟩

end Blocks

/-- **C33.** Take any sequence of builder calls that does not panic, in which every stream uses the
circuit's step and supplies exactly as many words as its control asks for, and every check is right. Load
the table with `calcs > table_size()`, any mode. Then `load` succeeds, every grid that carries its
witness is accepted, and the exposed table lists the requested hashes in order: row `i` of the hash that
follows the hashes `pre` has the digest, word pair `i`, control `(ctrl - i·STEP)·SPEC`, the domain (on the
first row) and the head flag (1 on the first row). -/
theorem C33_api {x : Run Fr} {k : ChipKind} {short : Bool} (hbn : x.IsBn k short) (hx : x.Legal)
    (hS : 0 < x.STEP) (hstep : x.step = x.STEP) (calls : List (Call Fr))
    (hrun : runCalls HashTable.empty calls = .ok x.table)
    (hst : ∀ c ∈ calls, StepOK x.STEP c)
    (hok : ∀ b ∈ calls.flatMap jobs, b.OK x.legacy x.STEP)
    (hcalcs : x.table.tableSize < x.calcs) :
    ∃ L', x.load = .ok L' ∧ ∀ post g, x.Honest L' post g → x.Accepted k short L' post g ∧
      ∃ s, x.EnabledAfter g s ∧ (x.Fresh → s = 0) ∧
        ∀ pre b rest, calls.flatMap jobs = pre ++ b :: rest → ∀ i < b.words.length,
          ∀ row, row = s + 1 + (pre.map fun p => p.words.length).sum + i →
          x.col g 0 row = b.digest x.legacy ∧
          (x.col g 1 row, x.col g 2 row) = b.words.getD i (0, 0) ∧
          x.col g 3 row = (((b.ctrl - i * x.STEP) * Base.domainSpec x.legacy : ℕ) : Fr) ∧
          x.col g 4 row = (if i = 0 then b.dom else 0) ∧
          x.col g 5 row = (if i = 0 then 1 else 0) := by
  obtain ⟨hl, hd⟩ := runCalls_data (legacy := x.legacy) hS calls aligned_empty hrun hst hok
  have hal := (aligned_runCalls calls aligned_empty hrun).1
  simp only [HashTable.empty, List.length_nil, Nat.zero_add, Nat.not_lt_zero, if_false, Nat.sub_zero] at hl hd
  rw [HashTable.tableSize, hl] at hcalcs
  have hw : Complete x.STEP x.step x.table x.calcs := by
    rw [hstep]; exact jobs_complete hS hok hd hcalcs
  obtain ⟨L', hL, hacc⟩ := C31_complete hbn hx (fun _ => ⟨by omega, by omega⟩)
    (jobs_checks hS hok hd x.calcs) hw
  refine ⟨L', hL, fun post g hg => ⟨hacc post g hg, ?_⟩⟩
  obtain ⟨⟨lw, -⟩, hn⟩ := hbn.lawful
  obtain ⟨s, hen, hfr, hv, -⟩ := Run.honest_iff lw fr_big hx hn (Or.inl hL) hg
  refine ⟨s, hen, hfr hL, fun pre b rest he i hi row hrow => ?_⟩
  have hoff : off x.STEP pre = (pre.map fun p => p.words.length).sum := by
    simp only [off, List.length_flatMap, Job.length_rows]
  rw [← hoff] at hrow
  obtain rfl : row = s + (off x.STEP pre + i + 1) := by omega
  have hlen : off x.STEP pre + b.words.length ≤ ((calls.flatMap jobs).flatMap (Job.rows x.STEP)).length := by
    rw [he, List.flatMap_append, List.flatMap_cons]
    simp only [List.length_append, Job.length_rows, off]
    omega
  have hrowi := data_job hd he i hi
  simp only [dataAt, Job.row, Prod.mk.injEq] at hrowi
  obtain ⟨r1, r2, r3, -⟩ := hrowi
  obtain ⟨m, hm⟩ : ∃ m, m + 1 = b.words.length := ⟨b.words.length - 1, by omega⟩
  refine ⟨?_, ?_, ?_, ?_, ?_⟩
  · have hdig := job_digest (legacy := x.legacy) hd he m hm
    rw [prefixDigest_eq _ _ _ _ (rowCtl_lt hx _)] at hdig
    rw [← hdig]
    refine hv.block (off x.STEP pre) m ?_ (fun i' h' => ?_) ?_ (by omega) i (by omega) (by omega)
    · rw [← rowCtl_eq]; exact job_start hS hok hd he
    · rw [← rowCtl_eq]; exact job_inside hS hok hd he i' (by omega)
    · rw [← rowCtl_eq]
      have h := congrArg (fun r : RowT => r.2.1) (data_job hd he m (by omega))
      simp only [dataAt, Job.row] at h
      rw [h, ctrl_le hS hok he m (by omega), hm]
  · have h1 := hv.w0 (off x.STEP pre + i) (by omega)
    have h2 := hv.w1 (off x.STEP pre + i) (by omega)
    rw [← rowWords_eq, r1] at h1 h2
    exact Prod.ext h1 h2
  · have h1 := hv.ctrl (off x.STEP pre + i) (by omega)
    rw [← rowCtl_eq, specFlag_small (rowCtl_lt hx _), r2] at h1
    exact h1
  · have h1 := hv.dom (off x.STEP pre + i) (by omega)
    rw [← rowDom_eq, r3] at h1
    exact h1
  · have h1 := hv.head (off x.STEP pre + i) (by omega)
    refine h1.trans ?_
    by_cases h0 : i = 0
    · subst h0
      rw [if_pos ((seq_isNew ..).mpr ?_), if_pos rfl]
      rw [← rowCtl_eq, Nat.add_zero]; exact job_start hS hok hd he
    · rw [if_neg, if_neg h0]
      rw [seq_isNew, ← rowCtl_eq]
      have := job_inside hS hok hd he (i - 1) (by omega)
      rw [show off x.STEP pre + (i - 1) = off x.STEP pre + i - 1 by omega] at this
      omega

-- an MPT hash with domain 7 and its check, a stream of 150 units with its check, a stream of 62 units
example (k : ChipKind) (short legacy : Bool) (mode : LoadMode) :
    ∃ (x : Run Fr) (calls : List (Call Fr)) (d e : Fr),
      calls = [.fixedInputs [((1, 2), 7, some d)], .streamInputsWithCheck [(3, 4), (5, 6), (7, 8)] (some e) 150 62,
        .streamInputs [(9, 10)] 62 62, .constantInputs [(11, 12)]] ∧
      x.IsBn k short ∧ x.Legal ∧ 0 < x.STEP ∧ x.step = x.STEP ∧ x.legacy = legacy ∧ x.mode = mode ∧
      runCalls HashTable.empty calls = .ok x.table ∧ (∀ c ∈ calls, StepOK x.STEP c) ∧
      (∀ b ∈ calls.flatMap jobs, b.OK x.legacy x.STEP) ∧ x.table.tableSize < x.calcs := by
  obtain ⟨ch, hch, -⟩ := bnChip_lawful k
  obtain ⟨d, hd⟩ : ∃ d, d = (⟨[(1, 2)], 0, 7, none⟩ : Job).digest legacy := ⟨_, rfl⟩
  obtain ⟨e, he⟩ : ∃ e, e = (⟨[(3, 4), (5, 6), (7, 8)], 150, 0, none⟩ : Job).digest legacy := ⟨_, rfl⟩
  refine ⟨{ demoRun ch short legacy mode 0 with
    table := ⟨[(1, 2), (3, 4), (5, 6), (7, 8), (9, 10), (11, 12)], [0, 150, 88, 26, 62],
      [some 7, none, none, none, none], [some d, none, none, some e, none]⟩, calcs := 7 }, _, d, e, rfl,
    ⟨hch, rfl⟩, ?_, by norm_num [demoRun], rfl, rfl, rfl, ?_, ?_, ?_, by norm_num [HashTable.tableSize]⟩
  · obtain ⟨h1, h2, h3, h4, h5, h6, -⟩ := demo_legal ch short legacy mode 0
    exact ⟨h1, h2, h3, h4, h5, by norm_num, by simp⟩
  · rfl
  · simp [StepOK, demoRun]
  · simp only [jobs, List.flatMap_cons, List.flatMap_nil, List.map_cons, List.map_nil, List.cons_append,
      List.nil_append, List.mem_cons, List.not_mem_nil, or_false, demoRun]
    rintro b (rfl | rfl | rfl | rfl)
    · refine ⟨by norm_num, fun h => by simp at h, fun ck h => ?_⟩
      rw [← Option.some.inj h, hd]; rfl
    · refine ⟨by norm_num, fun h => rfl, fun ck h => ?_⟩
      rw [← Option.some.inj h, he]; rfl
    · exact ⟨by norm_num, fun h => rfl, fun ck h => by simp at h⟩
    · exact ⟨by norm_num, fun h => rfl, fun ck h => by simp at h⟩

end Props
