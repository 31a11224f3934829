import Mathlib.Data.List.GetD
import Verif.Base.Decimal

/-!
# C62: the constant strings

`from_str_vartime` accepts exactly the decimal notations of the natural numbers, without leading zeros, and returns
the residue of the number; so the lazily initialised BN254 tables never panic and hold the constants of
`Base/Bn256Consts`.
-/

namespace Props
open Base

section parser
variable {F : Type} [Field F]

private theorem toDigit10_digitChar {d : ℕ} (hd : d < 10) : toDigit10 d.digitChar = some d := by
  interval_cases d <;> decide

private theorem digitChar_of_toDigit10 {c : Char} {d : ℕ} (h : toDigit10 c = some d) : d < 10 ∧ c = d.digitChar := by
  unfold toDigit10 at h
  split at h
  · rename_i hc
    obtain ⟨h1, h2⟩ := hc
    simp only [Option.some.injEq] at h
    have hd : c.toNat = d + 48 := by omega
    have hlt : d < 10 := by omega
    refine ⟨hlt, ?_⟩
    have : c = Char.ofNat (d + 48) := by rw [← hd, Char.ofNat_toNat]
    rw [this]
    interval_cases d <;> decide
  · simp at h

private theorem fromStrLoop_snoc (l : List Char) (hl : l ≠ []) (first : Bool) (c : Char) (res : F) :
    fromStrLoop F (l ++ [c]) first res =
      (fromStrLoop F l first res).bind fun x => (toDigit10 c).map fun (d : ℕ) => x * 10 + (d : F) := by
  induction l generalizing first res with
  | nil => exact absurd rfl hl
  | cons a l ih =>
    simp only [List.cons_append, fromStrLoop]
    cases toDigit10 a with
    | none => rfl
    | some d =>
      by_cases h0 : (first && d == 0) = true
      · simp [h0]
      · simp only [h0]
        by_cases hl' : l = []
        · subst hl'
          simp only [List.nil_append, fromStrLoop]
          cases toDigit10 c <;> simp
        · simpa using ih hl' false _

private theorem fromStrLoop_toDigits (n : ℕ) (hn : 0 < n) :
    fromStrLoop F (Nat.toDigits 10 n) true 0 = some (n : F) := by
  induction n using Nat.strong_induction_on with
  | _ n ih =>
    by_cases h : n < 10
    · rw [Nat.toDigits_of_lt_base h]
      simp only [fromStrLoop, toDigit10_digitChar h]
      simp [hn.ne']
    · rw [Nat.toDigits_of_base_le (by norm_num) (by omega), fromStrLoop_snoc _ Nat.toDigits_ne_nil,
        ih (n / 10) (by omega) (by omega), toDigit10_digitChar (Nat.mod_lt _ (by norm_num))]
      simp only [Option.bind_some, Option.map_some, Option.some.injEq]
      have := Nat.div_add_mod n 10
      conv_rhs => rw [← this]
      push_cast
      ring

private theorem fromStrLoop_some {l : List Char} (hl : l ≠ []) {x : F} (h : fromStrLoop F l true 0 = some x) :
    ∃ n : ℕ, 0 < n ∧ l = Nat.toDigits 10 n ∧ x = (n : F) := by
  induction l using List.reverseRecOn generalizing x with
  | nil => exact absurd rfl hl
  | append_singleton l c ih =>
    by_cases hl' : l = []
    · subst hl'
      simp only [List.nil_append, fromStrLoop] at h
      cases hc : toDigit10 c with
      | none => simp [hc] at h
      | some d =>
        obtain ⟨hd, rfl⟩ := digitChar_of_toDigit10 hc
        simp only [hc, Bool.true_and, beq_iff_eq] at h
        by_cases h0 : d = 0
        · simp [h0] at h
        · simp only [h0, if_false, zero_mul, zero_add, Option.some.injEq] at h
          exact ⟨d, by omega, by rw [Nat.toDigits_of_lt_base hd]; rfl, h.symm⟩
    · rw [fromStrLoop_snoc _ hl'] at h
      cases hx : fromStrLoop F l true 0 with
      | none => simp [hx] at h
      | some y =>
        obtain ⟨n, hn, hln, rfl⟩ := ih hl' hx
        cases hc : toDigit10 c with
        | none => simp [hx, hc] at h
        | some d =>
          obtain ⟨hd, rfl⟩ := digitChar_of_toDigit10 hc
          simp only [hx, hc, Option.bind_some, Option.map_some, Option.some.injEq] at h
          refine ⟨10 * n + d, by omega, ?_, ?_⟩
          · rw [← Nat.toDigits_append_toDigits (by norm_num) hn hd, Nat.toDigits_of_lt_base hd, hln]
          · rw [← h]; push_cast; ring

/-- **C62, parser.** A string is accepted exactly if it is the decimal notation of a natural number (no sign, no
leading zero, not empty), and the result is the residue of that number. -/
theorem C62_fromStr (s : String) (x : F) :
    fromStrVartime F s = some x ↔ ∃ n : ℕ, s = toString n ∧ x = (n : F) := by
  have key (n : ℕ) : s = toString n ↔ s.toList = Nat.toDigits 10 n := by
    rw [← String.toList_inj]
    change s.toList = n.repr.toList ↔ _
    rw [Nat.toList_repr]
  simp only [key]
  have h00 : s = "0" ↔ s.toList = Nat.toDigits 10 0 := by
    rw [← key 0]; rfl
  unfold fromStrVartime
  by_cases he : s.toList = []
  · simp only [he, if_true, reduceCtorEq, false_iff]
    rintro ⟨n, h, -⟩
    exact Nat.toDigits_ne_nil h.symm
  · rw [if_neg he]
    by_cases h0 : s = "0"
    · rw [if_pos h0]
      constructor
      · intro h
        exact ⟨0, h00.1 h0, by simpa using h.symm⟩
      · rintro ⟨n, h, rfl⟩
        rcases Nat.eq_zero_or_pos n with rfl | hn
        · simp
        · have := fromStrLoop_toDigits (F := F) n hn
          rw [← h, h00.1 h0] at this
          simp [fromStrLoop, toDigit10] at this
    · rw [if_neg h0]
      constructor
      · intro h
        obtain ⟨n, -, hl, hx⟩ := fromStrLoop_some he h
        exact ⟨n, hl, hx⟩
      · rintro ⟨n, h, rfl⟩
        have hn : 0 < n := Nat.pos_of_ne_zero (by rintro rfl; exact h0 (h00.2 h))
        rw [h, fromStrLoop_toDigits n hn]


/-- Accepted strings, as a property of the optional string found in a table. -/
private theorem lookup_ok (v : List String) (k : ℕ) (x : F) :
    parseAt F v k = .ok x ↔ ∃ n : ℕ, v[k]? = some (toString n) ∧ x = (n : F) := by
  unfold parseAt
  cases v[k]? with
  | none => simp
  | some s =>
    simp only [parseField, Option.some.injEq]
    rw [← C62_fromStr]
    cases fromStrVartime F s <;> simp

private theorem mapThree_ok {α : Type} (f : ℕ → Except Panic α) (t : Fin 3 → α) :
    mapThree f = .ok t ↔ ∀ j : Fin 3, f j = .ok (t j) := by
  unfold mapThree
  simp only [bind, Except.bind, pure, Except.pure, Fin.forall_fin_succ, Fin.val_zero, Fin.val_succ, zero_add,
    IsEmpty.forall_iff, and_true, Nat.reduceAdd]
  cases f 0 with
  | error e => simp
  | ok x =>
    cases f 1 with
    | error e => simp
    | ok y =>
      cases f 2 with
      | error e => simp
      | ok z =>
        simp only [Except.ok.injEq]
        constructor
        · rintro rfl; exact ⟨rfl, rfl, rfl⟩
        · rintro ⟨h0, h1, h2⟩
          funext j
          fin_cases j
          · exact h0
          · exact h1
          · exact h2

private theorem mapM_ok {α β : Type} (f : α → Except Panic β) (l : List α) (t : List β) :
    l.mapM f = .ok t ↔ List.Forall₂ (fun a b => f a = .ok b) l t := by
  induction l generalizing t with
  | nil =>
    simp only [List.mapM_nil, pure, Except.pure, Except.ok.injEq, List.forall₂_nil_left_iff]
    exact eq_comm
  | cons a l ih =>
    rw [List.mapM_cons]
    simp only [bind, Except.bind, pure, Except.pure]
    cases hfa : f a with
    | error e => simp [List.forall₂_cons_left_iff, hfa]
    | ok b =>
      cases hl : l.mapM f with
      | error e =>
        simp only [reduceCtorEq, List.forall₂_cons_left_iff, hfa, Except.ok.injEq, false_iff]
        rintro ⟨b', u, -, hu, -⟩
        rw [← ih, hl] at hu
        cases hu
      | ok u =>
        simp only [Except.ok.injEq, List.forall₂_cons_left_iff, hfa]
        constructor
        · rintro rfl; exact ⟨b, u, rfl, (ih u).1 hl, rfl⟩
        · rintro ⟨b', u', rfl, hu, rfl⟩
          rw [← ih, hl] at hu
          cases hu
          rfl

/-- **C62, `ROUND_CONSTANTS`.** The initialiser returns (instead of panicking) exactly if the first 195 strings of the
table exist and are decimal numbers; row `i`, column `j` is then the number at position `3 i + j`. -/
theorem C62_roundConstants (cStr : List String) (t : List (State F 3)) :
    initRoundConstants F cStr = .ok t ↔
      t.length = 65 ∧ ∀ (i : ℕ) (hi : i < t.length) (j : Fin 3),
        ∃ n : ℕ, cStr[i * 3 + j.val]? = some (toString n) ∧ t[i] j = (n : F) := by
  have hcore (u : List (State F 3)) :
      ((List.range 65).mapM fun i => mapThree fun j => parseAt F cStr (i * 3 + j)) = .ok u ↔
      u.length = 65 ∧ ∀ (i : ℕ) (hi : i < u.length) (j : Fin 3),
        ∃ n : ℕ, cStr[i * 3 + j.val]? = some (toString n) ∧ u[i] j = (n : F) := by
    rw [mapM_ok, List.forall₂_iff_get]
    simp only [mapThree_ok, lookup_ok, List.length_range, List.get_eq_getElem, List.getElem_range]
    constructor
    · rintro ⟨h1, h2⟩
      exact ⟨h1.symm, fun i hi j => h2 i (by omega) hi j⟩
    · rintro ⟨h1, h2⟩
      exact ⟨h1.symm, fun i _ hi j => h2 i hi j⟩
  unfold initRoundConstants
  simp only [bind, Except.bind, pure, Except.pure]
  cases hm : ((List.range 65).mapM fun i => mapThree fun j => parseAt F cStr (i * 3 + j)) with
  | error e =>
    simp only [reduceCtorEq, false_iff]
    intro h
    rw [← hcore, hm] at h
    cases h
  | ok u =>
    have hu := (hcore u).1 hm
    simp only [hu.1, if_true, Except.ok.injEq]
    constructor
    · rintro rfl; exact hu
    · intro h
      have := (hcore t).2 h
      rw [hm] at this
      exact Except.ok.inj this

/-- **C62, `MDS`.** Likewise for the matrix. -/
theorem C62_mds (mStr : List (List String)) (m : Mds F 3) :
    initMds F mStr = .ok m ↔
      ∀ i j : Fin 3, ∃ (row : List String) (n : ℕ),
        mStr[i.val]? = some row ∧ row[j.val]? = some (toString n) ∧ m i j = (n : F) := by
  unfold initMds
  rw [mapThree_ok]
  refine forall_congr' fun i => ?_
  rw [mapThree_ok]
  refine forall_congr' fun j => ?_
  cases mStr[i.val]? with
  | none => simp
  | some row =>
    simp only [lookup_ok, Option.some.injEq]
    constructor
    · rintro ⟨n, h1, h2⟩; exact ⟨row, n, rfl, h1, h2⟩
    · rintro ⟨_, n, rfl, h1, h2⟩; exact ⟨n, h1, h2⟩

end parser

/-! ## The strings of the crate -/

set_option maxRecDepth 100000 in
private theorem roundConstantStrs_eq :
    Bn256.roundConstantStrs = Bn256.roundConstantStrings.map fun n => String.ofList (Nat.toDigits 10 n) := by
  rfl

private theorem mdsStrs_eq :
    Bn256.mdsStrs = Bn256.mdsStrings.map (List.map fun n => String.ofList (Nat.toDigits 10 n)) := by
  rfl

/-- **C62, BN254.** The lazily initialised tables of the crate never panic and hold the modelled constants. -/
theorem C62_bn254 :
    initRoundConstants Bn256.Fr Bn256.roundConstantStrs = .ok Bn256.roundConstants ∧
    initMds Bn256.Fr Bn256.mdsStrs = .ok Bn256.mds := by
  have hlen : Bn256.roundConstantStrings.length = 195 := by decide +kernel
  have hr (n : ℕ) : String.ofList (Nat.toDigits 10 n) = toString n := Nat.toString_eq_ofList_toDigits.symm
  constructor
  · rw [C62_roundConstants]
    have hl : Bn256.roundConstants.length = 65 := by simp [Bn256.roundConstants]
    refine ⟨hl, fun i hi j => ⟨Bn256.roundConstantStrings.getD (i * 3 + j.val) 0, ?_, ?_⟩⟩
    · have hk : i * 3 + j.val < Bn256.roundConstantStrings.length := by have := j.isLt; omega
      rw [roundConstantStrs_eq]
      simp only [hr, List.getElem?_map, List.getElem?_eq_getElem hk, Option.map_some]
      rw [List.getD_eq_getElem _ _ hk]
    · have key (l : List (State Bn256.Fr 3)) (hl : l = (List.range 65).map fun i => fun j =>
          ((Bn256.roundConstantStrings.getD (i * 3 + j.val) 0 : ℕ) : Bn256.Fr)) (hi : i < l.length) :
          l[i] j = ((Bn256.roundConstantStrings.getD (i * 3 + j.val) 0 : ℕ) : Bn256.Fr) := by
        subst hl
        rw [List.getElem_map, List.getElem_range]
      exact key _ rfl hi
  · rw [C62_mds]
    intro i j
    have h3 : ∀ i : Fin 3, ∃ r, Bn256.mdsStrings[i.val]? = some r ∧ Bn256.mdsStrings.getD i.val [] = r ∧ r.length = 3 := by
      intro i
      fin_cases i <;> exact ⟨_, rfl, rfl, rfl⟩
    obtain ⟨r, h1, h2, h4⟩ := h3 i
    have hj : j.val < r.length := by have := j.isLt; omega
    refine ⟨r.map toString, r.getD j.val 0, ?_, ?_, ?_⟩
    · rw [mdsStrs_eq]
      simp only [hr, List.getElem?_map, h1, Option.map_some]
    · simp only [List.getElem?_map, List.getElem?_eq_getElem hj, Option.map_some]
      rw [List.getD_eq_getElem _ _ hj]
    · simp only [Bn256.mds, h2]

/-- Strings the parser accepts, and ones it does not: empty, a sign, a leading zero, a hexadecimal number, a Unicode
digit. -/
example : fromStrVartime Bn256.Fr "0" = some 0 ∧
    fromStrVartime Bn256.Fr "21888242871839275222246405745257275088548364400416034343698204186575808495620" = some 3 ∧
    fromStrVartime Bn256.Fr "" = none ∧ fromStrVartime Bn256.Fr "-1" = none ∧ fromStrVartime Bn256.Fr "01" = none ∧
    fromStrVartime Bn256.Fr "0x10" = none ∧ fromStrVartime Bn256.Fr "٣" = none := by
  refine ⟨by rw [C62_fromStr]; exact ⟨0, rfl, by simp⟩, ?_, by decide +kernel, by decide +kernel, by decide +kernel,
    by decide +kernel, by decide +kernel⟩
  rw [C62_fromStr]
  exact ⟨21888242871839275222246405745257275088548364400416034343698204186575808495620, by decide +kernel,
    by decide +kernel⟩

/-- A table that is one string short makes the initialiser panic. -/
example (t : List (State Bn256.Fr 3)) :
    initRoundConstants Bn256.Fr (Bn256.roundConstantStrs.take 194) ≠ .ok t := by
  intro h
  obtain ⟨hl, h⟩ := (C62_roundConstants _ _).1 h
  obtain ⟨n, hn, -⟩ := h 64 (by omega) 2
  have : (Bn256.roundConstantStrs.take 194)[64 * 3 + (2 : Fin 3).val]? = none := by
    apply List.getElem?_eq_none
    simp
  rw [this] at hn
  cases hn

end Props
