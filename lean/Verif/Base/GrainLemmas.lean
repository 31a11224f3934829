import Verif.Base.Grain
import Mathlib.Tactic.Ring

set_option linter.unusedSimpArgs false

namespace Base.Grain

/-! ### Bit buffers -/

theorem shift_and_one (x i : ℕ) : ((x >>> i) &&& 1 != 0) = x.testBit i := by
  rw [Nat.testBit, Nat.and_comm]

/-- Generic description of the write loops. -/
theorem fold_update (idx : ℕ → ℕ) (f : ℕ → Bool) (len : ℕ) (st : Fin 80 → Bool)
    (hlt : ∀ i, i < len → idx i < 80) (hinj : ∀ i j, i < len → j < len → idx i = idx j → i = j) :
    ∃ st', (List.range len).foldlM (fun (st : Fin 80 → Bool) i =>
        if h : idx i < 80 then Except.ok (Function.update st ⟨idx i, h⟩ (f i))
        else .error Panic.index) st = .ok st' ∧
      (∀ i (h : i < len), st' ⟨idx i, hlt i h⟩ = f i) ∧
      (∀ j : Fin 80, (∀ i, i < len → idx i ≠ j.val) → st' j = st j) := by
  induction len with
  | zero => exact ⟨st, rfl, by simp, by simp⟩
  | succ n ih =>
    obtain ⟨st1, h1, h2, h3⟩ := ih (fun i h => hlt i (by omega))
      (fun i j hi hj => hinj i j (by omega) (by omega))
    rw [List.range_succ, List.foldlM_append, h1]
    simp only [bind, Except.bind, List.foldlM_cons, List.foldlM_nil, dif_pos (hlt n (by omega)), pure,
      Except.pure]
    refine ⟨_, rfl, ?_, ?_⟩
    · intro i hi
      by_cases hin : i = n
      · subst hin; simp
      · rw [Function.update_of_ne, h2 i (by omega)]
        intro hc
        exact hin (hinj i n hi (by omega) (by simpa using hc))
    · intro j hj
      rw [Function.update_of_ne, h3 j (fun i hi => hj i (by omega))]
      intro hc
      exact hj n (by omega) (by rw [hc])

theorem testBit_toNat_shift (b : Bool) (k i : ℕ) :
    (b.toNat <<< k).testBit i = (b && decide (k = i)) := by
  rw [Nat.testBit_shiftLeft, Nat.testBit_bool_toNat]
  cases b with
  | false => simp
  | true =>
    by_cases h : k = i
    · subst h; simp
    · by_cases h' : k ≤ i
      · have : i - k ≠ 0 := by omega
        simp [h, this]
      · simp [h, h']

theorem newBits_testBit (t : Fin 8 → Bool) (i : ℕ) (hi : i < 8) :
    ((List.finRange 8).foldl (fun acc (k : Fin 8) => acc ||| ((t k).toNat <<< k.val)) 0).testBit i =
      t ⟨i, hi⟩ := by
  have key : ∀ (l : List (Fin 8)) (acc : ℕ),
      (l.foldl (fun acc (k : Fin 8) => acc ||| ((t k).toNat <<< k.val)) acc).testBit i =
        (acc.testBit i || l.any (fun k => t k && decide (k.val = i))) := by
    intro l
    induction l with
    | nil => intro acc; simp
    | cons k l ih =>
      intro acc
      simp only [List.foldl_cons, ih, Nat.testBit_or, testBit_toNat_shift, List.any_cons, Bool.or_assoc]
  rw [key, Nat.zero_testBit, Bool.false_or]
  cases h : t ⟨i, hi⟩ with
  | true =>
    rw [List.any_eq_true]
    exact ⟨⟨i, hi⟩, List.mem_finRange _, by simp [h]⟩
  | false =>
    rw [List.any_eq_false]
    intro k _
    by_cases hk : k.val = i
    · have : k = ⟨i, hi⟩ := Fin.ext hk
      simp [this, h]
    · simp [hk]

/-! ### The LFSR -/

/-- The recurrence. -/
def Rec (b : ℕ → Bool) : Prop :=
  ∀ i, b (i + 80) = (b (i + 62) ^^ b (i + 51) ^^ b (i + 38) ^^ b (i + 23) ^^ b (i + 13) ^^ b i)

theorem lfsr_rec (seed : ℕ) : Rec (Spec.lfsr seed) := by
  intro i
  rw [Spec.lfsr, if_neg (by omega)]
  rfl

/-- `g` holds the window of `b` at `n`, and the next bit it will deliver is `b pos`. -/
def Rep (b : ℕ → Bool) (g : Grain) (pos : ℕ) : Prop :=
  ∃ n, (∀ j : Fin 80, g.state j = b (n + j.val)) ∧ 72 ≤ g.nextBit ∧ g.nextBit ≤ 80 ∧
    pos = n + g.nextBit

theorem load_spec (b : ℕ → Bool) (hb : Rec b) (g : Grain) (n : ℕ)
    (hs : ∀ j : Fin 80, g.state j = b (n + j.val)) (hn : g.nextBit = 80) :
    ∃ g', loadNext8Bits g = .ok g' ∧ (∀ j : Fin 80, g'.state j = b (n + 8 + j.val)) ∧
      g'.nextBit = 72 := by
  unfold loadNext8Bits
  simp only [hn, show ¬ (80 < 8) by omega, if_false]
  obtain ⟨st', h1, h2, h3⟩ := fold_update (fun i => 80 - 8 + i)
    (fun i => (((List.finRange 8).foldl (fun acc (k : Fin 8) =>
      acc ||| ((tap g.state k).toNat <<< k.val)) 0) >>> i) &&& 1 != 0) 8
    (fun i : Fin 80 => g.state ⟨(i.val + 8) % 80, Nat.mod_lt _ (by omega)⟩)
    (fun i h => by omega) (fun i j _ _ h => by omega)
  rw [h1]
  refine ⟨⟨st', 72⟩, rfl, ?_, rfl⟩
  intro j
  simp only
  by_cases hj : j.val < 72
  · rw [h3 j (fun i hi => by omega)]
    simp only [hs]
    rw [Nat.mod_eq_of_lt (by omega)]
    congr 1; omega
  · have h8 : j.val - 72 < 8 := by omega
    have := h2 (j.val - 72) h8
    have e : (⟨80 - 8 + (j.val - 72), by omega⟩ : Fin 80) = j := Fin.ext (by simp; omega)
    rw [e] at this
    rw [this, shift_and_one, newBits_testBit _ _ h8]
    have hr := hb (n + (j.val - 72))
    simp only [tap, hs]
    rw [show n + 8 + j.val = n + (j.val - 72) + 80 by omega, hr]
    simp only [Nat.add_assoc]

theorem getNextBit_spec (b : ℕ → Bool) (hb : Rec b) (g : Grain) (pos : ℕ) (h : Rep b g pos) :
    ∃ g', getNextBit g = .ok (b pos, g') ∧ Rep b g' (pos + 1) := by
  obtain ⟨n, hs, h72, h80, rfl⟩ := h
  unfold getNextBit
  by_cases hn : g.nextBit = 80
  · obtain ⟨g', h1, h2, h3⟩ := load_spec b hb g n hs hn
    simp only [hn, if_true, h1, bind, Except.bind, h3, dif_pos (show 72 < 80 by omega), pure,
      Except.pure]
    refine ⟨⟨g'.state, 73⟩, ?_, ⟨n + 8, h2, ?_, ?_, ?_⟩⟩
    · simp only [h2, Except.ok.injEq, Prod.mk.injEq, and_true]
    · simp
    · simp
    · rfl
  · simp only [hn, if_false, bind, Except.bind, dif_pos (show g.nextBit < 80 by omega), pure,
      Except.pure]
    refine ⟨⟨g.state, g.nextBit + 1⟩, ?_, ⟨n, hs, ?_, ?_, ?_⟩⟩
    · rw [hs]
    · simp; omega
    · simp; omega
    · simp; omega

/-! ### Seeding -/

theorem setBits_spec (st : Fin 80 → Bool) (offset len value : ℕ) (h : offset + len ≤ 80) :
    ∃ st', setBits st offset len value = .ok st' ∧
      ∀ j : Fin 80, st' j = if offset ≤ j.val ∧ j.val < offset + len
        then value.testBit (offset + len - 1 - j.val) else st j := by
  unfold setBits
  obtain ⟨st', h1, h2, h3⟩ := fold_update (fun i => offset + len - 1 - i)
    (fun i => (value >>> i) &&& 1 != 0) len st (fun i h => by omega) (fun i j _ _ h => by omega)
  refine ⟨st', h1, fun j => ?_⟩
  split
  · rename_i hj
    have := h2 (offset + len - 1 - j.val) (by omega)
    have e : (⟨offset + len - 1 - (offset + len - 1 - j.val), by omega⟩ : Fin 80) = j :=
      Fin.ext (by simp; omega)
    rw [e] at this
    rw [this, shift_and_one]
  · rename_i hj
    exact h3 j (fun i hi => by omega)

theorem testBit_field (hi lo w i : ℕ) (hlo : lo < 2 ^ w) :
    (hi * 2 ^ w + lo).testBit i = if i < w then lo.testBit i else hi.testBit (i - w) := by
  rw [Nat.mul_comm, Nat.testBit_two_pow_mul_add _ hlo]

theorem discard_spec (b : ℕ → Bool) (hb : Rec b) (k n : ℕ) (g : Grain)
    (hs : ∀ j : Fin 80, g.state j = b (n + j.val)) (hn : g.nextBit = 80) :
    ∃ g', discard k g = .ok g' ∧ (∀ j : Fin 80, g'.state j = b (n + 8 * k + j.val)) ∧
      g'.nextBit = 80 := by
  induction k generalizing n g with
  | zero => exact ⟨g, rfl, by simpa using hs, hn⟩
  | succ k ih =>
    obtain ⟨g1, h1, h2, h3⟩ := load_spec b hb g n hs hn
    obtain ⟨g', h4, h5, h6⟩ := ih (n + 8) { g1 with nextBit := 80 } h2 rfl
    refine ⟨g', ?_, ?_, h6⟩
    · simp only [discard, h1, bind, Except.bind]; exact h4
    · intro j; rw [h5]; congr 1; omega

/-- Bit `j` of the seed of the specification. -/
theorem seed_bit (sbox n t rf rp : ℕ) (h1 : sbox < 2 ^ 4) (h2 : n < 2 ^ 12) (h3 : t < 2 ^ 12)
    (h4 : rf < 2 ^ 10) (h5 : rp < 2 ^ 10) (j : ℕ) (hj : j < 80) :
    (Spec.grainSeed sbox n t rf rp).testBit (79 - j) =
      if 40 ≤ j ∧ j < 40 + 10 then rp.testBit (40 + 10 - 1 - j)
      else if 30 ≤ j ∧ j < 30 + 10 then rf.testBit (30 + 10 - 1 - j)
      else if 18 ≤ j ∧ j < 18 + 12 then t.testBit (18 + 12 - 1 - j)
      else if 6 ≤ j ∧ j < 6 + 12 then n.testBit (6 + 12 - 1 - j)
      else if 2 ≤ j ∧ j < 2 + 4 then sbox.testBit (2 + 4 - 1 - j)
      else if 0 ≤ j ∧ j < 0 + 2 then (1 : ℕ).testBit (0 + 2 - 1 - j)
      else true := by
  have h30 : 2 ^ 30 - 1 < 2 ^ 30 := Nat.sub_lt (Nat.two_pow_pos 30) Nat.one_pos
  rw [Spec.grainSeed]
  rw [testBit_field _ _ 30 _ h30, testBit_field _ _ 10 _ h5, testBit_field _ _ 10 _ h4,
    testBit_field _ _ 12 _ h3, testBit_field _ _ 12 _ h2, testBit_field _ _ 4 _ h1]
  rw [Nat.testBit_two_pow_sub_one]
  by_cases c1 : j < 50
  · rw [if_neg (show ¬ (79 - j < 30) by omega)]
    by_cases c2 : 40 ≤ j
    · rw [if_pos (show 40 ≤ j ∧ j < 40 + 10 by omega), if_pos (by omega)]
      congr 1; omega
    · rw [if_neg (show ¬ (40 ≤ j ∧ j < 40 + 10) by omega),
        if_neg (show ¬ (79 - j - 30 < 10) by omega)]
      by_cases c3 : 30 ≤ j
      · rw [if_pos (show 30 ≤ j ∧ j < 30 + 10 by omega), if_pos (by omega)]
        congr 1; omega
      · rw [if_neg (show ¬ (30 ≤ j ∧ j < 30 + 10) by omega),
          if_neg (show ¬ (79 - j - 30 - 10 < 10) by omega)]
        by_cases c4 : 18 ≤ j
        · rw [if_pos (show 18 ≤ j ∧ j < 18 + 12 by omega), if_pos (by omega)]
          congr 1; omega
        · rw [if_neg (show ¬ (18 ≤ j ∧ j < 18 + 12) by omega),
            if_neg (show ¬ (79 - j - 30 - 10 - 10 < 12) by omega)]
          by_cases c5 : 6 ≤ j
          · rw [if_pos (show 6 ≤ j ∧ j < 6 + 12 by omega), if_pos (by omega)]
            congr 1; omega
          · rw [if_neg (show ¬ (6 ≤ j ∧ j < 6 + 12) by omega),
              if_neg (show ¬ (79 - j - 30 - 10 - 10 - 12 < 12) by omega)]
            by_cases c6 : 2 ≤ j
            · rw [if_pos (show 2 ≤ j ∧ j < 2 + 4 by omega), if_pos (by omega)]
              congr 1; omega
            · rw [if_neg (show ¬ (2 ≤ j ∧ j < 2 + 4) by omega),
                if_neg (show ¬ (79 - j - 30 - 10 - 10 - 12 - 12 < 4) by omega),
                if_pos (show 0 ≤ j ∧ j < 0 + 2 by omega)]
              congr 1; omega
  · rw [if_pos (show 79 - j < 30 by omega), if_neg (by omega), if_neg (by omega), if_neg (by omega),
      if_neg (by omega), if_neg (by omega), if_neg (by omega)]
    simp; omega

theorem ok_bind {α β : Type} (a : α) (f : α → Except Panic β) :
    ((Except.ok a : Except Panic α) >>= f) = f a := rfl

/-- The initial state written by `Grain::new` is the seed of the specification. -/
theorem initialState_spec (sbox n t rf rp : ℕ) (h1 : sbox < 2 ^ 4) (h2 : n < 2 ^ 12)
    (h3 : t < 2 ^ 12) (h4 : rf < 2 ^ 10) (h5 : rp < 2 ^ 10) :
    ∃ st, initialState sbox n t rf rp = .ok st ∧
      ∀ j : Fin 80, st j = (Spec.grainSeed sbox n t rf rp).testBit (79 - j.val) := by
  obtain ⟨s1, e1, f1⟩ := setBits_spec (fun _ => true) 0 2 1 (by omega)
  obtain ⟨s2, e2, f2⟩ := setBits_spec s1 2 4 sbox (by omega)
  obtain ⟨s3, e3, f3⟩ := setBits_spec s2 6 12 n (by omega)
  obtain ⟨s4, e4, f4⟩ := setBits_spec s3 18 12 t (by omega)
  obtain ⟨s5, e5, f5⟩ := setBits_spec s4 30 10 rf (by omega)
  obtain ⟨s6, e6, f6⟩ := setBits_spec s5 40 10 rp (by omega)
  refine ⟨s6, ?_, fun j => ?_⟩
  · unfold initialState
    rw [e1, ok_bind, e2, ok_bind, e3, ok_bind, e4, ok_bind, e5, ok_bind, e6]
  · rw [seed_bit sbox n t rf rp h1 h2 h3 h4 h5 j.val j.isLt, f6, f5, f4, f3, f2, f1]

theorem new_eq (sbox n t rf rp : ℕ) (st : Fin 80 → Bool) (h : initialState sbox n t rf rp = .ok st)
    (g : Grain) (hd : discard 20 ⟨st, 80⟩ = .ok g) : new sbox n t rf rp = .ok g := by
  unfold new
  rw [h, ok_bind, hd]

theorem new_rep (b : ℕ → Bool) (hrec : Rec b) (sbox n t rf rp : ℕ) (st : Fin 80 → Bool)
    (h : initialState sbox n t rf rp = .ok st) (hseed : ∀ j : Fin 80, st j = b j.val) :
    ∃ g, new sbox n t rf rp = .ok g ∧ Rep b g 240 := by
  obtain ⟨g, h6, h7, h8⟩ := discard_spec b hrec 20 0 ⟨st, 80⟩ (fun j => by simpa using hseed j) rfl
  exact ⟨g, new_eq sbox n t rf rp st h g h6, ⟨160, fun j => h7 j, by omega, by omega, by omega⟩⟩

/-- The generator returned by `Grain::new` is at position 240 of the reference bit sequence. -/
theorem new_spec (sbox n t rf rp : ℕ) (h1 : sbox < 2 ^ 4) (h2 : n < 2 ^ 12) (h3 : t < 2 ^ 12)
    (h4 : rf < 2 ^ 10) (h5 : rp < 2 ^ 10) :
    ∃ g, new sbox n t rf rp = .ok g ∧ Rep (Spec.lfsr (Spec.grainSeed sbox n t rf rp)) g 240 := by
  obtain ⟨st, e, f⟩ := initialState_spec sbox n t rf rp h1 h2 h3 h4 h5
  refine new_rep _ (lfsr_rec _) sbox n t rf rp st e (fun j => ?_)
  rw [f j, Spec.lfsr, if_pos j.isLt]

/-! ### Termination of the shrinking loop -/

/-- Polynomial over GF(2) (lowest coefficient first) acting on a sequence as a shift operator. -/
def act : List Bool → (ℕ → Bool) → ℕ → Bool
  | [], _, _ => false
  | c :: p, v, k => (c && v k) ^^ act p v (k + 1)

def padd : List Bool → List Bool → List Bool
  | [], q => q
  | p, [] => p
  | a :: p, b :: q => (a ^^ b) :: padd p q

def pmul : List Bool → List Bool → List Bool
  | [], _ => []
  | c :: p, q => padd (if c then q else []) (false :: pmul p q)

theorem act_padd (p q : List Bool) (v : ℕ → Bool) (k : ℕ) :
    act (padd p q) v k = (act p v k ^^ act q v k) := by
  induction p generalizing q k with
  | nil => simp [padd, act]
  | cons a p ih =>
    cases q with
    | nil => simp [padd, act]
    | cons b q =>
      simp only [padd, act, ih]
      cases a <;> cases b <;> cases v k <;> cases act p v (k + 1) <;> cases act q v (k + 1) <;> rfl

theorem act_pmul (p q : List Bool) (v : ℕ → Bool) (k : ℕ) :
    act (pmul p q) v k = act p (act q v) k := by
  induction p generalizing k with
  | nil => simp [pmul, act]
  | cons c p ih =>
    simp only [pmul, act_padd, act, ih, Bool.false_and, Bool.false_xor]
    cases c <;> simp [act]

theorem act_zero (p : List Bool) (v : ℕ → Bool) (k : ℕ)
    (h : ∀ j, k ≤ j → j < k + p.length → v j = false) : act p v k = false := by
  induction p generalizing k with
  | nil => rfl
  | cons c p ih =>
    simp only [act, h k (by omega) (by simp), Bool.and_false, Bool.false_xor]
    exact ih (k + 1) (fun j h1 h2 => h j (by omega) (by simp; omega))

theorem act_replicate_false (n : ℕ) (v : ℕ → Bool) (k : ℕ) :
    act (List.replicate n false) v k = false := by
  induction n generalizing k with
  | zero => rfl
  | succ n ih => simp [List.replicate_succ, act, ih]

/-- Coefficients of a polynomial given as a bit mask. -/
def bits (n mask : ℕ) : List Bool := (List.range n).map mask.testBit

/-- `x^25 + x^11 + x^6`. -/
def polyP : List Bool := bits 26 (2 ^ 25 + 2 ^ 11 + 2 ^ 6)
/-- `x^40 + x^31 + x^19 + 1`. -/
def polyQ : List Bool := bits 41 (2 ^ 40 + 2 ^ 31 + 2 ^ 19 + 1)
def bezA : List Bool := bits 40 0xe39900383b
def bezB : List Bool := bits 25 0x1c7d6c1

/-- Bezout certificate: `A * P + B * Q = 1` over GF(2). -/
theorem bezout : padd (pmul bezA polyP) (pmul bezB polyQ) = true :: List.replicate 64 false := by
  decide +kernel

theorem act_polyP (v : ℕ → Bool) (k : ℕ) : act polyP v k = (v (k + 6) ^^ v (k + 11) ^^ v (k + 25)) := by
  have : polyP = [false,false,false,false,false,false,true,false,false,false,false,true,false,false,
    false,false,false,false,false,false,false,false,false,false,false,true] := by decide +kernel
  rw [this]
  simp [act, Nat.add_assoc]

theorem act_polyQ (v : ℕ → Bool) (k : ℕ) :
    act polyQ v k = (v k ^^ v (k + 19) ^^ v (k + 31) ^^ v (k + 40)) := by
  have : polyQ = [true,false,false,false,false,false,false,false,false,false,
    false,false,false,false,false,false,false,false,false,true,
    false,false,false,false,false,false,false,false,false,false,
    false,true,false,false,false,false,false,false,false,false,true] := by decide +kernel
  rw [this]
  simp [act, Nat.add_assoc]

/-- If the first bits of 120 consecutive pairs vanish, then so do 80 consecutive bits. -/
theorem window_zero (b : ℕ → Bool) (hb : Rec b) (pos : ℕ)
    (h : ∀ k, k < 120 → b (pos + 2 * k) = false) : ∀ i, i < 80 → b (pos + i) = false := by
  let v : ℕ → Bool := fun k => b (pos + 2 * k + 1)
  have hP : ∀ k, k < 80 → act polyP v k = false := by
    intro k hk
    rw [act_polyP]
    have := hb (pos + 2 * k)
    have e80 := h (k + 40) (by omega)
    have e62 := h (k + 31) (by omega)
    have e38 := h (k + 19) (by omega)
    have e0 := h k (by omega)
    rw [show pos + 2 * k + 80 = pos + 2 * (k + 40) by omega,
      show pos + 2 * k + 62 = pos + 2 * (k + 31) by omega,
      show pos + 2 * k + 38 = pos + 2 * (k + 19) by omega, e80, e62, e38, e0,
      show pos + 2 * k + 51 = pos + 2 * (k + 25) + 1 by omega,
      show pos + 2 * k + 23 = pos + 2 * (k + 11) + 1 by omega,
      show pos + 2 * k + 13 = pos + 2 * (k + 6) + 1 by omega] at this
    simp only [v]
    generalize b (pos + 2 * (k + 25) + 1) = x at *
    generalize b (pos + 2 * (k + 11) + 1) = y at *
    generalize b (pos + 2 * (k + 6) + 1) = z at *
    revert this
    cases x <;> cases y <;> cases z <;> simp
  have hQ : ∀ k, k < 80 → act polyQ v k = false := by
    intro k hk
    rw [act_polyQ]
    have := hb (pos + 2 * k + 1)
    have e51 := h (k + 26) (by omega)
    have e23 := h (k + 12) (by omega)
    have e13 := h (k + 7) (by omega)
    rw [show pos + 2 * k + 1 + 51 = pos + 2 * (k + 26) by omega,
      show pos + 2 * k + 1 + 23 = pos + 2 * (k + 12) by omega,
      show pos + 2 * k + 1 + 13 = pos + 2 * (k + 7) by omega, e51, e23, e13,
      show pos + 2 * k + 1 + 80 = pos + 2 * (k + 40) + 1 by omega,
      show pos + 2 * k + 1 + 62 = pos + 2 * (k + 31) + 1 by omega,
      show pos + 2 * k + 1 + 38 = pos + 2 * (k + 19) + 1 by omega] at this
    simp only [v]
    generalize b (pos + 2 * (k + 40) + 1) = x at *
    generalize b (pos + 2 * (k + 31) + 1) = y at *
    generalize b (pos + 2 * (k + 19) + 1) = z at *
    generalize b (pos + 2 * k + 1) = t at *
    revert this
    cases x <;> cases y <;> cases z <;> cases t <;> simp
  have hv : ∀ k, k < 40 → v k = false := by
    intro k hk
    have h1 : act (padd (pmul bezA polyP) (pmul bezB polyQ)) v k = false := by
      rw [act_padd, act_pmul, act_pmul, act_zero, act_zero]; rfl
      · intro j h1 h2
        have : bezB.length = 25 := by simp [bezB, bits]
        exact hQ j (by omega)
      · intro j h1 h2
        have : bezA.length = 40 := by simp [bezA, bits]
        exact hP j (by omega)
    rw [bezout] at h1
    simpa [act, act_replicate_false] using h1
  intro i hi
  rcases Nat.even_or_odd' i with ⟨k, rfl | rfl⟩
  · exact h k (by omega)
  · exact hv k (by omega)

/-- A zero window makes everything before it zero. -/
theorem zero_backwards (b : ℕ → Bool) (hb : Rec b) (pos : ℕ) (h : ∀ i, i < 80 → b (pos + i) = false) :
    ∀ j, j ≤ pos → ∀ i, i < 80 → b (pos - j + i) = false := by
  intro j
  induction j with
  | zero => intro _ i hi; simpa using h i hi
  | succ j ih =>
    intro hj i hi
    have ih' := ih (by omega)
    rcases Nat.eq_zero_or_pos i with rfl | hpos
    · have hr := hb (pos - (j + 1))
      have e : ∀ m, 1 ≤ m → m ≤ 80 → b (pos - (j + 1) + m) = false := by
        intro m h1 h2
        have := ih' (m - 1) (by omega)
        rwa [show pos - j + (m - 1) = pos - (j + 1) + m by omega] at this
      rw [e 80 (by omega) (by omega), e 62 (by omega) (by omega), e 51 (by omega) (by omega),
        e 38 (by omega) (by omega), e 23 (by omega) (by omega), e 13 (by omega) (by omega)] at hr
      simpa using hr.symm
    · have := ih' (i - 1) (by omega)
      rwa [show pos - j + (i - 1) = pos - (j + 1) + i by omega] at this

/-- Among any 120 consecutive pairs of the stream, one starts with a 1. -/
theorem exists_one (b : ℕ → Bool) (hb : Rec b) (h79 : b 79 = true) (pos : ℕ) :
    ∃ k, k < 120 ∧ b (pos + 2 * k) = true ∧ ∀ j, j < k → b (pos + 2 * j) = false := by
  have hex : ∃ k, k < 120 ∧ b (pos + 2 * k) = true := by
    by_contra hc
    push Not at hc
    have hz := window_zero b hb pos (fun k hk => by simpa using hc k hk)
    have := zero_backwards b hb pos hz pos le_rfl 79 (by omega)
    simp [h79] at this
  classical
  let P : ℕ → Prop := fun k => b (pos + 2 * k) = true
  have hP : ∃ k, P k := let ⟨k, _, h⟩ := hex; ⟨k, h⟩
  obtain ⟨k0, hk0, hb0⟩ := hex
  refine ⟨Nat.find hP, lt_of_le_of_lt (Nat.find_min' hP hb0) hk0, Nat.find_spec hP, ?_⟩
  intro j hj
  simpa [P] using Nat.find_min hP hj

theorem seed_79 (sbox n t rf rp : ℕ) : Spec.lfsr (Spec.grainSeed sbox n t rf rp) 79 = true := by
  rw [Spec.lfsr, if_pos (by omega), Spec.grainSeed, testBit_field _ _ 30 _ (by omega)]
  simp

/-- The loop of `next` with enough fuel: skips to the first pair that starts with 1. -/
theorem nextLoop_spec (b : ℕ → Bool) (hb : Rec b) (k : ℕ) : ∀ (fuel : ℕ) (g : Grain) (pos : ℕ),
    k < fuel → Rep b g pos → b (pos + 2 * k) = true → (∀ j, j < k → b (pos + 2 * j) = false) →
    ∃ g', nextLoop fuel g = .ok (b (pos + 2 * k + 1), g') ∧ Rep b g' (pos + 2 * k + 2) := by
  induction k with
  | zero =>
    intro fuel g pos hf hr h1 _
    obtain ⟨fuel, rfl⟩ : ∃ f, fuel = f + 1 := ⟨fuel - 1, by omega⟩
    obtain ⟨g1, e1, r1⟩ := getNextBit_spec b hb g pos hr
    obtain ⟨g2, e2, r2⟩ := getNextBit_spec b hb g1 (pos + 1) r1
    refine ⟨g2, ?_, r2⟩
    simp only [nextLoop, e1, bind, Except.bind]
    simp only [Nat.mul_zero, Nat.add_zero] at h1
    simp [h1, e2]
  | succ k ih =>
    intro fuel g pos hf hr h1 h2
    obtain ⟨fuel, rfl⟩ : ∃ f, fuel = f + 1 := ⟨fuel - 1, by omega⟩
    obtain ⟨g1, e1, r1⟩ := getNextBit_spec b hb g pos hr
    obtain ⟨g2, e2, r2⟩ := getNextBit_spec b hb g1 (pos + 1) r1
    have h0 : b pos = false := by simpa using h2 0 (by omega)
    obtain ⟨g3, e3, r3⟩ := ih fuel g2 (pos + 2) (by omega) r2
      (by rw [← h1]; congr 1; omega)
      (fun j hj => by rw [← h2 (j + 1) (by omega)]; congr 1; omega)
    refine ⟨g3, ?_, ?_⟩
    · simp only [nextLoop, e1, bind, Except.bind, h0, e2]
      simp only [Bool.false_eq_true, if_false, e3]
      congr 2
      congr 1; omega
    · convert r3 using 1; omega

theorem next_spec (b : ℕ → Bool) (hb : Rec b) (h79 : b 79 = true) (g : Grain) (pos : ℕ)
    (hr : Rep b g pos) :
    ∃ k g', k < 120 ∧ b (pos + 2 * k) = true ∧ (∀ j, j < k → b (pos + 2 * j) = false) ∧
      (∀ fuel, 120 ≤ fuel → nextLoop fuel g = .ok (b (pos + 2 * k + 1), g')) ∧
      Rep b g' (pos + 2 * k + 2) := by
  obtain ⟨k, hk, h1, h2⟩ := exists_one b hb h79 pos
  obtain ⟨g', e, r⟩ := nextLoop_spec b hb k 120 g pos hk hr h1 h2
  refine ⟨k, g', hk, h1, h2, ?_, r⟩
  intro fuel hf
  -- fuel does not matter once it suffices
  have mono : ∀ (f : ℕ) (g : Grain) (x : Bool × Grain), nextLoop f g = .ok x →
      ∀ f', f ≤ f' → nextLoop f' g = .ok x := by
    intro f
    induction f with
    | zero => intro g x h; simp [nextLoop] at h
    | succ f ih =>
      intro g x h f' hf'
      obtain ⟨f', rfl⟩ : ∃ q, f' = q + 1 := ⟨f' - 1, by omega⟩
      simp only [nextLoop, bind, Except.bind] at h ⊢
      split at h
      · simp at h
      · rename_i v hv
        split at h
        · rename_i hb1; rw [if_pos hb1]; exact h
        · rename_i hb1
          rw [if_neg hb1]
          split at h
          · simp at h
          · rename_i w hw
            exact ih _ _ h _ (by omega)
  exact mono 120 g _ e fuel hf

theorem shrink_split (b : ℕ → Bool) (pos m1 m2 : ℕ) :
    Spec.shrink b pos (m1 + m2) = Spec.shrink b pos m1 ++ Spec.shrink b (pos + 2 * m1) m2 := by
  unfold Spec.shrink
  rw [List.range_add, List.filterMap_append, List.filterMap_map]
  congr 1
  apply List.filterMap_congr
  intro k _
  simp only [Function.comp]
  rw [show pos + 2 * (m1 + k) = pos + 2 * m1 + 2 * k by omega]

theorem shrink_skip (b : ℕ → Bool) (pos k : ℕ) (h1 : b (pos + 2 * k) = true)
    (h2 : ∀ j, j < k → b (pos + 2 * j) = false) :
    Spec.shrink b pos (k + 1) = [b (pos + 2 * k + 1)] := by
  rw [shrink_split]
  have : Spec.shrink b pos k = [] := by
    unfold Spec.shrink
    rw [List.filterMap_eq_nil_iff]
    intro j hj
    simp [h2 j (List.mem_range.mp hj)]
  rw [this]
  simp [Spec.shrink, h1]

/-- Drawing `n` bits delivers the first `n` bits of the shrunk stream. -/
theorem takeBits_spec (b : ℕ → Bool) (hb : Rec b) (h79 : b 79 = true) (n : ℕ) :
    ∀ (g : Grain) (pos : ℕ), Rep b g pos →
      ∃ l g' m, takeBits n g = .ok (l, g') ∧ l = Spec.shrink b pos m ∧ l.length = n ∧
        Rep b g' (pos + 2 * m) := by
  induction n with
  | zero => intro g pos hr; exact ⟨[], g, 0, rfl, by simp [Spec.shrink], rfl, by simpa using hr⟩
  | succ n ih =>
    intro g pos hr
    obtain ⟨k, g1, hk, h1, h2, e1, r1⟩ := next_spec b hb h79 g pos hr
    obtain ⟨l, g2, m, e2, h3, h4, r2⟩ := ih g1 _ r1
    refine ⟨b (pos + 2 * k + 1) :: l, g2, (k + 1) + m, ?_, ?_, by simp [h4], ?_⟩
    · simp only [takeBits, next, e1 120 le_rfl, e2, bind, Except.bind, pure, Except.pure]
    · rw [shrink_split, shrink_skip b pos k h1 h2, h3]
      rfl
    · convert r2 using 1; omega

end Base.Grain
