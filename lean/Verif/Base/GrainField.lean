import Verif.Base.GrainLemmas

/-!
Lemmas on the byte buffers of `next_field_element` and on drawing groups of bits.
-/

namespace Base.Grain

theorem testBit_leValue (view : List ℕ) (hb : ∀ x ∈ view, x < 256) (p : ℕ) :
    (leValue view).testBit p = (view.getD (p / 8) 0).testBit (p % 8) := by
  induction view generalizing p with
  | nil => simp [leValue]
  | cons x l ih =>
    have hx : x < 2 ^ 8 := by have := hb x (by simp); simpa using this
    have : leValue (x :: l) = leValue l * 2 ^ 8 + x := by
      simp only [leValue, List.foldr_cons]; omega
    rw [this, testBit_field _ _ 8 _ hx]
    by_cases hp : p < 8
    · have h0 : p / 8 = 0 := by omega
      have h1 : p % 8 = p := by omega
      rw [if_pos hp, h0, h1]; rfl
    · rw [if_neg hp, ih (fun y hy => hb y (by simp [hy]))]
      have h0 : p / 8 = (p - 8) / 8 + 1 := by omega
      have h1 : p % 8 = (p - 8) % 8 := by omega
      rw [h0, h1, List.getD_cons_succ]

theorem testBit_ofBitsMSB (l : List Bool) (p : ℕ) :
    (Spec.ofBitsMSB l).testBit p = (decide (p < l.length) && l.getD (l.length - 1 - p) false) := by
  unfold Spec.ofBitsMSB
  induction l using List.reverseRecOn generalizing p with
  | nil => simp
  | append_singleton l x ih =>
    rw [List.foldl_append]
    simp only [List.foldl_cons, List.foldl_nil, List.length_append, List.length_singleton]
    cases p with
    | zero =>
      rw [Nat.testBit_zero]
      cases x <;> simp [Nat.add_mod]
    | succ p =>
      rw [Nat.testBit_succ]
      have : (2 * List.foldl (fun acc b => 2 * acc + b.toNat) 0 l + x.toNat) / 2 =
          List.foldl (fun acc b => 2 * acc + b.toNat) 0 l := by
        have := Bool.toNat_lt x; omega
      rw [this, ih]
      have e : l.length + 1 - 1 - (p + 1) = l.length - 1 - p := by omega
      rw [e]
      by_cases hp : p < l.length
      · have h2 : l.length - 1 - p < l.length := by omega
        simp [List.getD_eq_getElem?_getD, List.getElem?_append_left h2, hp]
      · simp [hp]

/-- One iteration of the write loop. -/
theorem write_one (numBits : ℕ) (view : List ℕ) (bit : Bool) (i : ℕ) (hi : i < numBits)
    (hlen : numBits ≤ 8 * view.length) (hb : ∀ x ∈ view, x < 256) :
    ∃ view', (match view[(numBits - 1 - i) / 8]? with
      | none => (Except.error Panic.index : Except Panic (List ℕ))
      | some byte => .ok (view.set ((numBits - 1 - i) / 8)
          (byte ||| (if bit then 1 <<< ((numBits - 1 - i) % 8) else 0)))) = .ok view' ∧
      view'.length = view.length ∧ (∀ x ∈ view', x < 256) ∧
      ∀ p, (leValue view').testBit p =
        ((leValue view).testBit p || (decide (p = numBits - 1 - i) && bit)) := by
  set q := numBits - 1 - i with hq
  have hlt : q / 8 < view.length := by omega
  rw [List.getElem?_eq_getElem hlt]
  have hbyte : view[q / 8] ||| (if bit then 1 <<< (q % 8) else 0) < 2 ^ 8 := by
    apply Nat.or_lt_two_pow
    · simpa using hb _ (List.getElem_mem hlt)
    · split
      · rw [Nat.shiftLeft_eq, one_mul]
        exact Nat.pow_lt_pow_right (by omega) (Nat.mod_lt _ (by omega))
      · simp
  have hall : ∀ x ∈ view.set (q / 8) (view[q / 8] ||| (if bit then 1 <<< (q % 8) else 0)), x < 256 := by
    intro x hx
    rcases List.mem_or_eq_of_mem_set hx with h | h
    · exact hb x h
    · rw [h]; simpa using hbyte
  refine ⟨_, rfl, by simp, hall, ?_⟩
  intro p
  rw [testBit_leValue _ hall, testBit_leValue _ hb]
  simp only [List.getD_eq_getElem?_getD, List.getElem?_set]
  by_cases h8 : q / 8 = p / 8
  · rw [if_pos h8, if_pos hlt, ← h8, List.getElem?_eq_getElem hlt]
    simp only [Option.getD_some, Nat.testBit_or]
    congr 1
    cases bit with
    | false => simp
    | true =>
      simp only [if_true, Nat.shiftLeft_eq, one_mul, Nat.testBit_two_pow, Bool.and_true]
      congr 1
      apply propext; constructor
      · intro h; omega
      · intro h; omega
  · rw [if_neg h8]
    have : p ≠ q := fun h => h8 (by rw [h])
    simp [this]

theorem writeBits_aux (numBits : ℕ) (bits : List Bool) : ∀ (off : ℕ) (view : List ℕ),
    off + bits.length ≤ numBits → numBits ≤ 8 * view.length → (∀ x ∈ view, x < 256) →
    ∃ view', (bits.zipIdx off).foldlM (fun view (bit, i) =>
        let i := numBits - 1 - i
        match view[i / 8]? with
        | none => (Except.error Panic.index : Except Panic (List ℕ))
        | some byte => .ok (view.set (i / 8) (byte ||| (if bit then 1 <<< (i % 8) else 0)))) view
        = .ok view' ∧
      view'.length = view.length ∧ (∀ x ∈ view', x < 256) ∧
      ∀ p, (leValue view').testBit p = ((leValue view).testBit p ||
        (decide (p + off < numBits ∧ numBits ≤ p + off + bits.length) &&
          bits.getD (numBits - 1 - p - off) false)) := by
  induction bits with
  | nil =>
    intro off view _ h2 h3
    refine ⟨view, rfl, rfl, h3, fun p => ?_⟩
    simp
  | cons b bs ih =>
    intro off view h1 h2 h3
    simp only [List.length_cons] at h1
    obtain ⟨v1, e1, l1, b1, t1⟩ := write_one numBits view b off (by omega) h2 h3
    obtain ⟨v2, e2, l2, b2, t2⟩ := ih (off + 1) v1 (by omega) (by omega) b1
    refine ⟨v2, ?_, by omega, b2, fun p => ?_⟩
    · rw [List.zipIdx_cons, List.foldlM_cons]
      simp only at e1 ⊢
      rw [e1, ok_bind]
      exact e2
    · rw [t2, t1, Bool.or_assoc]
      congr 1
      by_cases hp : p = numBits - 1 - off
      · have e : numBits - 1 - p - off = 0 := by omega
        have c1 : ¬ (p + (off + 1) < numBits ∧ numBits ≤ p + (off + 1) + bs.length) := by omega
        have c2 : p + off < numBits ∧ numBits ≤ p + off + (bs.length + 1) := by omega
        rw [e, decide_eq_false c1, List.length_cons, decide_eq_true c2, decide_eq_true hp]
        simp
      · rw [decide_eq_false hp]
        by_cases c1 : p + (off + 1) < numBits ∧ numBits ≤ p + (off + 1) + bs.length
        · have c2 : p + off < numBits ∧ numBits ≤ p + off + (bs.length + 1) := by omega
          have e : numBits - 1 - p - off = (numBits - 1 - p - (off + 1)) + 1 := by omega
          rw [decide_eq_true c1, List.length_cons, decide_eq_true c2, e, List.getD_cons_succ]
          simp
        · have c2 : ¬ (p + off < numBits ∧ numBits ≤ p + off + (bs.length + 1)) := by omega
          rw [decide_eq_false c1, List.length_cons, decide_eq_false c2]
          simp

/-- The byte buffer holds the number written most significant bit first. -/
theorem writeBits_spec (numBits k : ℕ) (bits : List Bool) (hl : bits.length = numBits)
    (hk : numBits ≤ 8 * k) :
    ∃ bytes, writeBits numBits (List.replicate k 0) bits = .ok bytes ∧ bytes.length = k ∧
      (∀ x ∈ bytes, x < 256) ∧ leValue bytes = Spec.ofBitsMSB bits := by
  obtain ⟨v, e, l, b, t⟩ := writeBits_aux numBits bits 0 (List.replicate k 0) (by omega)
    (by simpa using hk) (by intro x hx; rw [List.eq_of_mem_replicate hx]; omega)
  refine ⟨v, e, by simpa using l, b, ?_⟩
  apply Nat.eq_of_testBit_eq
  intro p
  have h0 : leValue (List.replicate k 0) = 0 := by
    unfold leValue
    induction k with
    | zero => rfl
    | succ k ih' => 
      clear ih' e l t hk
      induction k with
      | zero => rfl
      | succ k ih => rw [List.replicate_succ, List.foldr_cons, ih]
  rw [t, testBit_ofBitsMSB, h0, hl]
  simp only [Nat.zero_testBit, Bool.false_or, Nat.add_zero, Nat.sub_zero]
  congr 2
  apply propext
  omega

/-- Drawing `m + n` bits is drawing `m` and then `n`. -/
theorem takeBits_add (m n : ℕ) (g g' : Grain) (l : List Bool) (h : takeBits (m + n) g = .ok (l, g')) :
    ∃ g1, takeBits m g = .ok (l.take m, g1) ∧ takeBits n g1 = .ok (l.drop m, g') := by
  induction m generalizing g l with
  | zero => exact ⟨g, rfl, by simpa using h⟩
  | succ m ih =>
    rw [Nat.succ_add] at h
    simp only [takeBits, bind, Except.bind, pure, Except.pure] at h ⊢
    cases hn : next g with
    | error e => rw [hn] at h; simp at h
    | ok v =>
      rw [hn] at h
      simp only at h ⊢
      cases ht : takeBits (m + n) v.2 with
      | error e => rw [ht] at h; simp at h
      | ok w =>
        rw [ht] at h
        simp only [Except.ok.injEq, Prod.mk.injEq] at h
        obtain ⟨g1, h1, h2⟩ := ih v.2 w.1 (by rw [ht, ← h.2])
        refine ⟨g1, ?_, ?_⟩
        · rw [h1, ← h.1]; simp
        · rw [h2, ← h.1]; simp

theorem takeBits_length (n : ℕ) (g g' : Grain) (l : List Bool) (h : takeBits n g = .ok (l, g')) :
    l.length = n := by
  induction n generalizing g l with
  | zero => simp only [takeBits, Except.ok.injEq, Prod.mk.injEq] at h; rw [← h.1]; rfl
  | succ n ih =>
    simp only [takeBits, bind, Except.bind, pure, Except.pure] at h
    cases hn : next g with
    | error e => rw [hn] at h; simp at h
    | ok v =>
      rw [hn] at h
      simp only at h
      cases ht : takeBits n v.2 with
      | error e => rw [ht] at h; simp at h
      | ok w =>
        rw [ht] at h
        simp only [Except.ok.injEq, Prod.mk.injEq] at h
        rw [← h.1, List.length_cons, ih v.2 w.1 (by rw [ht, ← h.2])]

/-- `next_field_element` on the groups it draws. -/
theorem nextFieldElement_spec (p numBits : ℕ) (hn : numBits ≤ 256) (k : ℕ) :
    ∀ (fuel : ℕ) (g g' : Grain) (l : List Bool), k < fuel →
      takeBits ((k + 1) * numBits) g = .ok (l, g') →
      (∀ j, j < k → p ≤ Spec.ofBitsMSB ((l.drop (j * numBits)).take numBits)) →
      Spec.ofBitsMSB ((l.drop (k * numBits)).take numBits) < p →
      nextFieldElement p numBits fuel g =
        .ok ((Spec.ofBitsMSB ((l.drop (k * numBits)).take numBits) : ZMod p), g') := by
  induction k with
  | zero =>
    intro fuel g g' l hf ht _ h2
    obtain ⟨fuel, rfl⟩ : ∃ f, fuel = f + 1 := ⟨fuel - 1, by omega⟩
    rw [Nat.zero_add, one_mul] at ht
    have hl := takeBits_length _ _ _ _ ht
    obtain ⟨v, e, -, -, hv⟩ := writeBits_spec numBits 32 l hl (by omega)
    simp only [Nat.zero_mul, List.drop_zero, List.take_of_length_le hl.le] at h2 ⊢
    simp only [nextFieldElement, ht, ok_bind, e, hv, if_pos h2]
    rfl
  | succ k ih =>
    intro fuel g g' l hf ht h1 h2
    obtain ⟨fuel, rfl⟩ : ∃ f, fuel = f + 1 := ⟨fuel - 1, by omega⟩
    rw [show (k + 1 + 1) * numBits = numBits + (k + 1) * numBits by ring] at ht
    obtain ⟨g1, t1, t2⟩ := takeBits_add _ _ _ _ _ ht
    have hl := takeBits_length _ _ _ _ t1
    obtain ⟨v, e, -, -, hv⟩ := writeBits_spec numBits 32 _ hl (by omega)
    have h0 := h1 0 (by omega)
    simp only [Nat.zero_mul, List.drop_zero] at h0
    have hstep : ∀ j, (l.drop numBits).drop (j * numBits) = l.drop ((j + 1) * numBits) := by
      intro j; rw [List.drop_drop]; congr 1; ring
    have := ih fuel g1 g' (l.drop numBits) (by omega) t2
      (fun j hj => by rw [hstep]; exact h1 (j + 1) (by omega)) (by rw [hstep]; exact h2)
    rw [hstep] at this
    simp only [nextFieldElement, t1, ok_bind, e, hv, if_neg (not_lt.mpr h0), this]

theorem setBits_mod (st : Fin 80 → Bool) (o len v : ℕ) :
    setBits st o len v = setBits st o len (v % 2 ^ len) := by
  unfold setBits
  have : ∀ (l : List ℕ), (∀ i ∈ l, i < len) → ∀ st : Fin 80 → Bool,
      l.foldlM (fun (st : Fin 80 → Bool) i => if h : o + len - 1 - i < 80 then
        (Except.ok (Function.update st ⟨o + len - 1 - i, h⟩ ((v >>> i) &&& 1 != 0)) :
          Except Panic (Fin 80 → Bool)) else .error .index) st =
      l.foldlM (fun (st : Fin 80 → Bool) i => if h : o + len - 1 - i < 80 then
        (Except.ok (Function.update st ⟨o + len - 1 - i, h⟩ (((v % 2 ^ len) >>> i) &&& 1 != 0)) :
          Except Panic (Fin 80 → Bool)) else .error .index) st := by
    intro l hl
    induction l with
    | nil => intro st; rfl
    | cons a l ih =>
      intro st
      have ha : ((v >>> a) &&& 1 != 0) = (((v % 2 ^ len) >>> a) &&& 1 != 0) := by
        rw [shift_and_one, shift_and_one, Nat.testBit_mod_two_pow]
        simp [hl a (by simp)]
      rw [List.foldlM_cons, List.foldlM_cons, ha]
      split
      · rw [ok_bind, ok_bind]; exact ih (fun i hi => hl i (by simp [hi])) _
      · rfl
  exact this _ (fun i hi => List.mem_range.mp hi) st

/-- Parameters are silently cut to the width of their field of the seed. -/
theorem initialState_mod (sbox n t rf rp : ℕ) :
    initialState sbox n t rf rp =
      initialState (sbox % 2 ^ 4) (n % 2 ^ 12) (t % 2 ^ 12) (rf % 2 ^ 10) (rp % 2 ^ 10) := by
  unfold initialState
  simp only [fun st => setBits_mod st 2 4 sbox, fun st => setBits_mod st 6 12 n,
    fun st => setBits_mod st 18 12 t, fun st => setBits_mod st 30 10 rf,
    fun st => setBits_mod st 40 10 rp]

end Base.Grain
