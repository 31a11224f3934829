import Verif.Base.Sponge
import Mathlib.Tactic.Ring
import Mathlib.Tactic.FinCases

set_option linter.unusedSectionVars false
set_option linter.unusedSimpArgs false

namespace Base
variable {F : Type} [Field F] {T RATE : ℕ} [NeZero T]

/-- The mode that holds the words `p` so far. -/
def modeOf (RATE : ℕ) (p : List F) : Absorbing F RATE := ⟨fun k => p[k.val]?⟩

omit [Field F] in
theorem find_isNone (p : List F) (h : p.length ≤ RATE) :
    (List.finRange RATE).find? (fun k => ((modeOf RATE p).val k).isNone) =
      if h : p.length < RATE then some ⟨p.length, h⟩ else none := by
  split
  · rename_i h1
    rw [List.find?_eq_some_iff_getElem]
    refine ⟨by simp [modeOf], p.length, by simpa using h1, by simp, ?_⟩
    intro j hj
    simp [modeOf]; omega
  · rename_i h1
    rw [List.find?_eq_none]
    intro k _
    simp [modeOf]; omega

theorem addInput_ok (layout : ℕ) (p : List F) (h : p.length = RATE) (s : State F T) :
    addInput layout (modeOf RATE p).val s = .ok (Spec.addBlock layout p s) := by
  unfold addInput
  have key : ∀ n (hn : n ≤ RATE),
      ((List.finRange RATE).take n).foldlM (fun st (k : Fin RATE) =>
        if h : layout + k.val < T then
          match (modeOf RATE p).val k with
          | none => Except.error Panic.notPadded
          | some v => .ok (Function.update st ⟨layout + k.val, h⟩ (st ⟨layout + k.val, h⟩ + v))
        else .ok st) s = .ok (Spec.addBlock layout (p.take n) s) := by
    intro n hn
    induction n with
    | zero =>
      have : Spec.addBlock layout [] s = s := by funext i; simp [Spec.addBlock]
      simp [this]; rfl
    | succ n ih =>
      rw [List.take_succ_eq_append_getElem (by simp; omega), List.foldlM_append, ih (by omega)]
      have hpn : n < p.length := by omega
      simp only [List.getElem_finRange, Fin.cast_mk, bind, Except.bind, List.foldlM_cons,
        List.foldlM_nil, modeOf, List.getElem?_eq_getElem hpn]
      split
      · rename_i e he
        split_ifs at he
      · rename_i e he
        split_ifs at he with h1
        · simp only [Except.ok.injEq] at he
          subst he
          simp only [pure, Except.pure, Except.ok.injEq]
          funext i
          by_cases hi : i = ⟨layout + n, h1⟩
          · subst hi
            simp [Spec.addBlock, List.getD_eq_getElem?_getD, List.getElem?_take, hpn]
          · rw [Function.update_of_ne hi]
            have hi' : i.val ≠ layout + n := fun h => hi (Fin.ext h)
            simp only [Spec.addBlock]
            split
            · congr 1
              simp only [List.getD_eq_getElem?_getD, List.getElem?_take]
              have : (i.val - layout < n) ↔ (i.val - layout < n + 1) := by omega
              simp [this]
            · rfl
        · simp only [Except.ok.injEq] at he
          subst he
          simp only [pure, Except.pure, Except.ok.injEq]
          funext i
          simp only [Spec.addBlock]
          split
          · congr 1
            simp only [List.getD_eq_getElem?_getD, List.getElem?_take]
            have := i.isLt
            have : (i.val - layout < n) ↔ (i.val - layout < n + 1) := by omega
            simp [this]
          · rfl
  have := key RATE le_rfl
  rw [List.take_of_length_le (by simp), List.take_of_length_le (by omega)] at this
  exact this

/-- The state `poseidon_sponge` reaches on a full block. -/
theorem poseidonSponge_full (perm : State F T → State F T) (layout : ℕ) (p : List F)
    (h : p.length = RATE) (hT : RATE ≤ T) (hl : layout ≤ T - RATE) (s : State F T) :
    poseidonSponge perm s (some (modeOf RATE p, layout)) =
      .ok (perm (Spec.addBlock layout p s), ⟨outputOf (perm (Spec.addBlock layout p s))⟩) := by
  simp only [poseidonSponge, hT, hl, if_true, addInput_ok layout p h s]
  rfl

/-- A block that is not full makes `poseidon_sponge` panic. -/
theorem addInput_notPadded (layout : ℕ) (p : List F) (h : p.length < RATE) (hl : layout + RATE ≤ T)
    (s : State F T) : addInput layout (modeOf RATE p).val s = .error .notPadded := by
  unfold addInput
  have key : ∀ (l : List (Fin RATE)) (st : State F T), (∃ k ∈ l, p.length ≤ k.val) →
      l.foldlM (fun st (k : Fin RATE) =>
        if h : layout + k.val < T then
          match (modeOf RATE p).val k with
          | none => Except.error Panic.notPadded
          | some v => .ok (Function.update st ⟨layout + k.val, h⟩ (st ⟨layout + k.val, h⟩ + v))
        else .ok st) st = .error .notPadded := by
    intro l
    induction l with
    | nil => intro st h; simp at h
    | cons k l ih =>
      intro st hk
      have hkT : layout + k.val < T := by have := k.isLt; omega
      simp only [List.foldlM_cons, hkT, dif_pos, modeOf]
      by_cases hkp : k.val < p.length
      · simp only [List.getElem?_eq_getElem hkp]
        apply ih
        obtain ⟨j, hj, hjp⟩ := hk
        rcases List.mem_cons.mp hj with rfl | hj
        · omega
        · exact ⟨j, hj, hjp⟩
      · simp only [List.getElem?_eq_none (Nat.not_lt.mp hkp)]
        rfl
  exact key _ s ⟨⟨p.length, h⟩, List.mem_finRange _, le_rfl⟩

/-- A sponge with state `s` and the words `p` pending. -/
def spongeOf (RATE : ℕ) (layout : ℕ) (s : State F T) (p : List F) : Sponge F (Absorbing F RATE) T :=
  { mode := modeOf RATE p, state := s, layout := layout }

theorem absorb_lt (perm : State F T → State F T) (layout : ℕ) (s : State F T) (p : List F) (v : F)
    (h : p.length < RATE) :
    (spongeOf RATE layout s p).absorb perm v = .ok (spongeOf RATE layout s (p ++ [v])) := by
  unfold Sponge.absorb
  have : (spongeOf RATE layout s p).mode = modeOf RATE p := rfl
  rw [this, find_isNone p (by omega), dif_pos h]
  simp only [spongeOf, Except.ok.injEq, Sponge.mk.injEq, and_self, and_true]
  simp only [modeOf, Absorbing.mk.injEq]
  funext k
  by_cases hk : k = ⟨p.length, h⟩
  · subst hk; simp
  · rw [Function.update_of_ne hk]
    have hk' : k.val ≠ p.length := fun h => hk (Fin.ext h)
    rw [List.getElem?_append]
    split
    · rfl
    · rename_i h1
      rw [List.getElem?_eq_none (by omega), List.getElem?_eq_none (by simp; omega)]

theorem absorb_eq (perm : State F T → State F T) (layout : ℕ) (s : State F T) (p : List F) (v : F)
    (h : p.length = RATE) (h0 : 0 < RATE) (hl : layout + RATE ≤ T) :
    (spongeOf RATE layout s p).absorb perm v =
      .ok (spongeOf RATE layout (perm (Spec.addBlock layout p s)) [v]) := by
  unfold Sponge.absorb
  have : (spongeOf RATE layout s p).mode = modeOf RATE p := rfl
  rw [this, find_isNone p (by omega), dif_neg (by omega)]
  simp only [spongeOf, poseidonSponge_full perm layout p h (by omega) (by omega),
    Absorbing.initWith]
  rw [if_neg (by omega)]
  simp only [bind, Except.bind, pure, Except.pure, modeOf, Except.ok.injEq, Sponge.mk.injEq,
    Absorbing.mk.injEq, and_self, and_true]
  funext k
  by_cases hk : k.val = 0
  · simp [hk]
  · rw [if_neg hk, List.getElem?_eq_none (by simp; omega)]

theorem absorbBlocks_nil (π : State F T → State F T) (off rate : ℕ) (s : State F T) :
    Spec.absorbBlocks π off rate [] s = s := by
  rw [Spec.absorbBlocks]; simp

theorem absorbBlocks_cons (π : State F T → State F T) (off rate : ℕ) (m : List F) (s : State F T)
    (h : m ≠ []) (hr : 0 < rate) :
    Spec.absorbBlocks π off rate m s =
      Spec.absorbBlocks π off rate (m.drop rate) (π (Spec.addBlock off (m.take rate) s)) := by
  rw [Spec.absorbBlocks, dif_neg (by simp [h]; omega)]

/-- Absorbing words one by one and finishing computes the block sponge, for padded messages. -/
theorem absorb_finish (perm : State F T → State F T) (layout : ℕ) (m p : List F) (s : State F T)
    (h0 : 0 < RATE) (hl : layout + RATE ≤ T) (hp : p.length ≤ RATE) (hne : p ++ m ≠ [])
    (hmod : (p ++ m).length % RATE = 0) :
    (do
      let σ ← m.foldlM (fun σ v => Sponge.absorb perm σ v) (spongeOf RATE layout s p)
      Sponge.finishAbsorbing perm σ) =
      .ok ⟨⟨outputOf (Spec.absorbBlocks perm layout RATE (p ++ m) s)⟩,
        Spec.absorbBlocks perm layout RATE (p ++ m) s, layout⟩ := by
  induction m generalizing p s with
  | nil =>
    have hp' : p.length = RATE := by
      simp only [List.append_nil] at hmod hne
      have : p.length ≠ 0 := by simpa using hne
      by_contra hc
      rw [Nat.mod_eq_of_lt (by omega)] at hmod
      omega
    simp only [List.foldlM_nil, List.append_nil]
    rw [absorbBlocks_cons perm layout RATE p s (by simpa using hne) h0,
      List.take_of_length_le (by omega), List.drop_of_length_le (by omega), absorbBlocks_nil]
    simp only [bind, Except.bind, pure, Except.pure, Sponge.finishAbsorbing, spongeOf,
      poseidonSponge_full perm layout p hp' (by omega) (by omega)]
  | cons v m ih =>
    simp only [List.foldlM_cons]
    rcases Nat.lt_or_ge p.length RATE with hlt | hge
    · rw [absorb_lt perm layout s p v hlt]
      have := ih (p ++ [v]) s (by simp; omega) (by simp) (by simpa using hmod)
      rw [List.append_assoc] at this
      exact this
    · have hp' : p.length = RATE := by omega
      rw [absorb_eq perm layout s p v hp' h0 hl]
      have hmod' : ([v] ++ m).length % RATE = 0 := by
        simp only [List.length_append, hp', Nat.add_mod_left, List.length_cons] at hmod
        simpa [Nat.add_comm] using hmod
      have := ih [v] (perm (Spec.addBlock layout p s)) (by simp; omega) (by simp) hmod'
      rw [absorbBlocks_cons perm layout RATE (p ++ v :: m) s (by simp) h0,
        List.take_left' hp', List.drop_left' hp']
      exact this

/-- With nothing pending, finishing panics. -/
theorem finish_empty (perm : State F T → State F T) (layout : ℕ) (s : State F T)
    (h0 : 0 < RATE) (hl : layout + RATE ≤ T) :
    Sponge.finishAbsorbing perm (spongeOf RATE layout s []) = .error .notPadded := by
  simp only [Sponge.finishAbsorbing, poseidonSponge, spongeOf]
  have h1 : RATE ≤ T := by omega
  have h2 : layout ≤ T - RATE := by omega
  simp only [h1, h2, if_true, addInput_notPadded layout [] (show ([] : List F).length < RATE by simpa using h0) hl]
  rfl

/-- Mode with the first `k` entries already taken from the output `o`. -/
def takenMode (RATE : ℕ) (s : State F T) (k : ℕ) : Squeezing F RATE :=
  ⟨fun j => if j.val < k then none else outputOf s j⟩

omit [Field F] in
theorem takeFirst_takenMode (s : State F T) (k : ℕ) (hk : k < RATE) (hT : RATE ≤ T) :
    takeFirst (takenMode RATE s k) = some (s ⟨k, by omega⟩, takenMode RATE s (k + 1)) := by
  have hf : (List.finRange RATE).find? (fun j => ((takenMode RATE s k).val j).isSome) =
      some ⟨k, hk⟩ := by
    rw [List.find?_eq_some_iff_getElem]
    refine ⟨by simp [takenMode, outputOf]; omega, k, by simpa using hk, by simp, ?_⟩
    intro j hj
    simp [takenMode, hj]
  simp only [takeFirst, hf]
  simp only [takenMode, lt_irrefl, if_false, outputOf, dif_pos (show k < T by omega),
    Option.map_some, Option.some.injEq, Prod.mk.injEq, true_and, Squeezing.mk.injEq]
  funext j
  by_cases hj : j = ⟨k, hk⟩
  · subst hj; simp
  · have hj' : j.val ≠ k := fun h => hj (Fin.ext h)
    rw [Function.update_of_ne hj]
    have : j.val < k + 1 ↔ j.val < k := by omega
    simp [this]

omit [Field F] in
theorem takeFirst_done (s : State F T) : takeFirst (takenMode RATE s RATE) = none := by
  have hf : (List.finRange RATE).find? (fun j => ((takenMode RATE s RATE).val j).isSome) = none := by
    rw [List.find?_eq_none]; intro j _; simp [takenMode]
  simp [takeFirst, hf]

omit [Field F] in
theorem takenMode_zero (s : State F T) : takenMode RATE s 0 = ⟨outputOf s⟩ := by
  simp [takenMode]

theorem squeeze_first (perm : State F T → State F T) (layout : ℕ) (s : State F T) (h0 : 0 < RATE)
    (hT : RATE ≤ T) :
    Sponge.squeeze (RATE := RATE) perm ⟨⟨outputOf s⟩, s, layout⟩ =
      .ok (s 0, ⟨takenMode RATE s 1, s, layout⟩) := by
  simp only [Sponge.squeeze, ← takenMode_zero, takeFirst_takenMode s 0 h0 hT, zero_add]
  congr 1

/-- Appending the zero words that complete the last block does not change the block sponge. -/
theorem absorbBlocks_pad (π : State F T → State F T) (off rate : ℕ) (hr : 0 < rate) (k : ℕ) :
    ∀ (m : List F) (s : State F T), k < rate → (k = 0 ∨ m.length % rate ≠ 0) →
      (m.length + k) % rate = 0 →
      Spec.absorbBlocks π off rate (m ++ List.replicate k 0) s = Spec.absorbBlocks π off rate m s := by
  intro m
  induction hn : m.length using Nat.strong_induction_on generalizing m with
  | _ n ih =>
    intro s hk hk0 hmod
    subst hn
    by_cases hk' : k = 0
    · subst hk'; simp
    have hne : m ≠ [] := by
      rintro rfl; simp at hk0; exact hk' hk0
    rw [absorbBlocks_cons π off rate _ s (by simp [hne]) hr, absorbBlocks_cons π off rate m s hne hr]
    rcases Nat.lt_or_ge m.length rate with hlt | hge
    · have : m.length + k = rate := by
        have h2 : m.length + k < 2 * rate := by omega
        have : 0 < m.length + k := by omega
        by_contra hc
        rcases Nat.lt_or_gt_of_ne hc with h | h
        · rw [Nat.mod_eq_of_lt h] at hmod; omega
        · rw [Nat.mod_eq_sub_mod (by omega), Nat.mod_eq_of_lt (by omega)] at hmod; omega
      rw [List.take_of_length_le (by simp; omega), List.drop_of_length_le (by simp; omega),
        List.take_of_length_le (by omega), List.drop_of_length_le (by omega)]
      congr 2
      funext i
      simp only [Spec.addBlock]
      split
      · congr 1
        simp only [List.getD_eq_getElem?_getD, List.getElem?_append, List.getElem?_replicate]
        split
        · rfl
        · rename_i h1
          rw [List.getElem?_eq_none (Nat.not_lt.mp h1)]
          split <;> rfl
      · rfl
    · rw [List.take_append_of_le_length hge, List.drop_append_of_le_length hge]
      have hpos : 0 < m.length := by
        rcases m with _ | _ <;> simp_all
      have e1 : m.length % rate = (m.length - rate) % rate := Nat.mod_eq_sub_mod hge
      refine ih (m.drop rate).length (by simp; omega) _ rfl _ hk ?_ ?_
      · right
        rcases hk0 with h | h
        · exact absurd h hk'
        · simpa [← e1] using h
      · have : m.length + k = (m.length - rate + k) + rate := by omega
        rw [this, Nat.add_mod_right] at hmod
        simpa using hmod

/-- Number of zero words `Domain::padding` appends completes the last block. -/
theorem constPad_mod (L RATE : ℕ) (h0 : 0 < RATE) :
    (L + ((L + RATE - 1) / RATE * RATE - L)) % RATE = 0 ∧ (L + RATE - 1) / RATE * RATE - L < RATE ∧
      ((L + RATE - 1) / RATE * RATE - L = 0 ∨ L % RATE ≠ 0) := by
  have h1 := Nat.div_add_mod (L + RATE - 1) RATE
  have h2 := Nat.mod_lt (L + RATE - 1) h0
  have h3 : (L + RATE - 1) / RATE * RATE = RATE * ((L + RATE - 1) / RATE) := Nat.mul_comm _ _
  have hge : L ≤ (L + RATE - 1) / RATE * RATE := by omega
  refine ⟨?_, by omega, ?_⟩
  · rw [Nat.add_sub_cancel' hge]; exact Nat.mul_mod_left _ _
  · by_cases hm : L % RATE = 0
    · left
      obtain ⟨q, rfl⟩ := Nat.dvd_of_mod_eq_zero hm
      have : (RATE * q + RATE - 1) / RATE = q := by
        rw [Nat.add_sub_assoc h0, Nat.mul_add_div h0, Nat.div_eq_of_lt (by omega)]; omega
      rw [this, Nat.mul_comm]; omega
    · right; exact hm

theorem varPad_mod (L RATE : ℕ) (h0 : 0 < RATE) :
    (L + (if L % RATE = 0 then 0 else RATE - L % RATE)) % RATE = 0 ∧
      (if L % RATE = 0 then 0 else RATE - L % RATE) < RATE ∧
      ((if L % RATE = 0 then 0 else RATE - L % RATE) = 0 ∨ L % RATE ≠ 0) := by
  have h2 := Nat.mod_lt L h0
  split
  · rename_i h; simp [h]; omega
  · rename_i h
    refine ⟨?_, by omega, Or.inr h⟩
    have := Nat.div_add_mod L RATE
    have : L + (RATE - L % RATE) = RATE * (L / RATE + 1) := by rw [Nat.mul_add]; omega
    rw [this]; exact Nat.mul_mod_right _ _

/-- Main refinement: absorbing a padded message and squeezing one word. -/
theorem absorbAll_eq (perm : State F T → State F T) (layout : ℕ) (s : State F T) (m : List F) (k : ℕ)
    (h0 : 0 < RATE) (hl : layout + RATE ≤ T) (hk : k < RATE) (hk0 : k = 0 ∨ m.length % RATE ≠ 0)
    (hmod : (m.length + k) % RATE = 0) :
    absorbAllAndSqueeze perm (spongeOf RATE layout s []) (m ++ List.replicate k 0) =
      if m = [] then .error .notPadded
      else .ok (Spec.absorbBlocks perm layout RATE m s 0) := by
  unfold absorbAllAndSqueeze
  split
  · rename_i h
    subst h
    have : k = 0 := by simpa using hk0
    subst this
    simp only [List.replicate_zero, List.append_nil, List.foldlM_nil, bind, Except.bind, pure,
      Except.pure, finish_empty perm layout s h0 hl]
  · rename_i h
    have := absorb_finish perm layout (m ++ List.replicate k 0) [] s h0 hl (by simp) (by simp [h])
      (by simpa using hmod)
    simp only [List.nil_append] at this
    rw [absorbBlocks_pad perm layout RATE h0 k m s hk hk0 hmod] at this
    rw [← bind_assoc, this]
    simp only [bind, Except.bind, squeeze_first perm layout _ h0 (show RATE ≤ T by omega), pure, Except.pure]

theorem init_eq (D : DomainKind) :
    (Hash.init D : Hash F T RATE) = spongeOf RATE (D.layout RATE T)
      (Function.update (fun _ => 0) (capIndex RATE (D.layout RATE T)) D.initialCapacity) [] := by
  simp [Hash.init, Sponge.new, spongeOf, modeOf]

theorem updateCapacity_eq (layout : ℕ) (s : State F T) (p : List F) (c : F) :
    (spongeOf RATE layout s p).updateCapacity c =
      spongeOf RATE layout (Function.update s (capIndex RATE layout)
        (s (capIndex RATE layout) + c)) p := rfl

end Base

namespace Base
variable {F : Type} [Field F]

theorem vec3_eta (s : Fin 3 → F) : ![s 0, s 1, s 2] = s := by
  funext i; fin_cases i <;> rfl

/-- The block sponge at width 3, rate 2, offset 1 is the pairwise sponge on triples. -/
theorem absorbBlocks_pairs (π : State F 3 → State F 3) :
    ∀ (m : List F) (s : State F 3),
      Spec.absorbPairs (Spec.onTriples π) (s 0, s 1, s 2) m =
        (Spec.absorbBlocks π 1 2 m s 0, Spec.absorbBlocks π 1 2 m s 1, Spec.absorbBlocks π 1 2 m s 2) := by
  intro m
  induction hn : m.length using Nat.strong_induction_on generalizing m with
  | _ n ih =>
    intro s
    match m with
    | [] => simp [Spec.absorbPairs, absorbBlocks_nil]
    | [a] =>
      rw [absorbBlocks_cons π 1 2 [a] s (by simp) (by omega)]
      have : Spec.addBlock 1 [a] s = ![s 0, s 1 + a, s 2] := by
        funext i; fin_cases i <;> simp [Spec.addBlock]
      simp [Spec.absorbPairs, Spec.onTriples, absorbBlocks_nil, this]
    | a :: b :: m =>
      rw [absorbBlocks_cons π 1 2 (a :: b :: m) s (by simp) (by omega)]
      have : Spec.addBlock 1 [a, b] s = ![s 0, s 1 + a, s 2 + b] := by
        funext i; fin_cases i <;> simp [Spec.addBlock]
      have e1 : (a :: b :: m).take 2 = [a, b] := rfl
      have e2 : (a :: b :: m).drop 2 = m := rfl
      rw [e1, e2, this, ← ih m.length (by subst hn; simp; omega) m rfl]
      simp [Spec.absorbPairs, Spec.onTriples]

end Base
