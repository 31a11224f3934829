import Verif.Base.GrainField

/-!
# A fast evaluator for the Grain generator

The register is kept as an 80-bit natural number and stepped two bits at a time, so that long runs can be
computed by the kernel. `evalDraws_spec` ties it to the reference bit sequence.
-/

namespace Base.Grain

/-- Continue with the value of `x`; makes the kernel evaluate `x` first. -/
def force {α : Type} (x : ℕ) (f : ℕ → α) : α := Nat.rec (f 0) (fun k _ => f (Nat.succ k)) x

theorem force_eq {α : Type} (x : ℕ) (f : ℕ → α) : force x f = f x := by cases x <;> rfl

/-- The register two steps later. -/
def step2 (w : ℕ) : ℕ :=
  Nat.mod (Nat.add (Nat.mul w 4) (Nat.land (Nat.xor (Nat.xor (Nat.xor (Nat.xor (Nat.xor (Nat.shiftRight w 16)
    (Nat.shiftRight w 27)) (Nat.shiftRight w 40)) (Nat.shiftRight w 55)) (Nat.shiftRight w 65))
    (Nat.shiftRight w 78)) 3)) 1208925819614629174706176

/-- Draw `cnt + 1` bits, most significant first, on top of `acc`; `fuel` bounds the number of pairs. -/
def evalBits (fuel : ℕ) : ℕ → ℕ → ℕ → Option (ℕ × ℕ) :=
  Nat.rec (fun _ _ _ => none) (fun _ ih w cnt acc =>
    force (step2 w) fun w' =>
      Bool.rec (ih w' cnt acc)
        (force (Nat.add (Nat.mul acc 2) (Nat.mod w' 2)) fun acc' =>
          Nat.rec (some (acc', w')) (fun c _ => ih w' c acc') cnt)
        (Nat.ble 2 (Nat.mod w' 4))) fuel

/-- Draw `count` groups of `numBits` bits. -/
def evalDraws (numBits count : ℕ) : ℕ → Option (List ℕ) :=
  Nat.rec (fun _ => some []) (fun _ ih w =>
    match evalBits 2000 w (numBits - 1) 0 with
    | none => none
    | some (v, w') => (ih w').map (v :: ·)) count

/-- The register at the start of the delivered stream: the seed after 160 discarded bits. -/
def evalStart (seed : ℕ) : ℕ := Nat.rec seed (fun _ w => force w step2) 80

/-! ### Correctness -/

/-- `w` holds the last 80 bits before position `pos`, most recent bit lowest. -/
def WRep (b : ℕ → Bool) (w pos : ℕ) : Prop :=
  w < 2 ^ 80 ∧ 80 ≤ pos ∧ ∀ j, j < 80 → w.testBit j = b (pos - 1 - j)

theorem step2_spec (b : ℕ → Bool) (hb : Rec b) (w pos : ℕ) (h : WRep b w pos) :
    WRep b (step2 w) (pos + 2) := by
  obtain ⟨-, hpos, hw⟩ := h
  obtain ⟨n, rfl⟩ : ∃ n, pos = n + 80 := ⟨pos - 80, by omega⟩
  obtain ⟨x, hx⟩ : ∃ x, x = (w >>> 16 ^^^ w >>> 27 ^^^ w >>> 40 ^^^ w >>> 55 ^^^ w >>> 65 ^^^ w >>> 78) :=
    ⟨_, rfl⟩
  have hs : step2 w = (w * 2 ^ 2 + x % 2 ^ 2) % 2 ^ 80 := by
    have h3 : x &&& 3 = x % 2 ^ 2 := Nat.and_two_pow_sub_one_eq_mod x 2
    rw [← h3, hx]; rfl
  have hxb : ∀ i, x.testBit i = (w.testBit (16 + i) ^^ w.testBit (27 + i) ^^ w.testBit (40 + i) ^^
      w.testBit (55 + i) ^^ w.testBit (65 + i) ^^ w.testBit (78 + i)) := by
    intro i
    simp only [hx, Nat.testBit_xor, Nat.testBit_shiftRight, Bool.xor_assoc]
  have hx0 : x.testBit 0 = b (n + 81) := by
    rw [hxb, show n + 81 = (n + 1) + 80 by omega, hb (n + 1), hw _ (by omega), hw _ (by omega), hw _ (by omega),
      hw _ (by omega), hw _ (by omega), hw _ (by omega)]
    congr 1
  have hx1 : x.testBit 1 = b (n + 80) := by
    rw [hxb, hb n, hw _ (by omega), hw _ (by omega), hw _ (by omega),
      hw _ (by omega), hw _ (by omega), hw _ (by omega)]
    congr 1
  refine ⟨by rw [hs]; exact Nat.mod_lt _ (by norm_num), by omega, fun j hj => ?_⟩
  rw [hs, Nat.testBit_mod_two_pow, testBit_field _ _ _ _ (Nat.mod_lt _ (by norm_num)),
    Nat.testBit_mod_two_pow]
  simp only [hj, decide_true, Bool.true_and]
  match j with
  | 0 => simpa using hx0
  | 1 => simpa using hx1
  | j + 2 =>
    rw [if_neg (by omega), hw _ (by omega)]
    congr 1; omega

/-- The stream position after `n` drawn bits and the bits themselves; for `n > 0` the last pair used is
one that delivered a bit. -/
def Drawn (b : ℕ → Bool) (pos n : ℕ) (l : List Bool) (m : ℕ) : Prop :=
  l = Spec.shrink b pos m ∧ l.length = n ∧ (m = 0 ∨ b (pos + 2 * (m - 1)) = true)

theorem shrink_succ (b : ℕ → Bool) (pos m : ℕ) :
    Spec.shrink b pos (m + 1) = (if b pos then [b (pos + 1)] else []) ++ Spec.shrink b (pos + 2) m := by
  rw [Nat.add_comm m 1, shrink_split]
  congr 1
  simp only [Spec.shrink, List.range_one, List.filterMap_cons, List.filterMap_nil, Nat.mul_zero, Nat.add_zero]
  by_cases h : b pos <;> simp [h]

theorem shrink_last (b : ℕ → Bool) (pos m : ℕ) (h : b (pos + 2 * m) = true) :
    Spec.shrink b pos (m + 1) = Spec.shrink b pos m ++ [b (pos + 2 * m + 1)] := by
  rw [shrink_split, shrink_succ, h]
  simp [Spec.shrink]

theorem Drawn.unique {b : ℕ → Bool} {pos n : ℕ} {l l' : List Bool} {m m' : ℕ}
    (h : Drawn b pos n l m) (h' : Drawn b pos n l' m') : m = m' := by
  -- if `m < m'` then the last kept pair of the longer run makes it strictly longer
  have key : ∀ {l l' : List Bool} {m m' : ℕ}, Drawn b pos n l m → Drawn b pos n l' m' → ¬ m < m' := by
    intro l l' m m' h1 h2 hlt
    obtain ⟨e, hl, -⟩ := h1
    obtain ⟨e', hl', hk⟩ := h2
    rcases hk with h0 | hk
    · omega
    obtain ⟨d, rfl⟩ : ∃ d, m' = (m + d) + 1 := ⟨m' - m - 1, by omega⟩
    rw [show m + d + 1 - 1 = m + d by omega] at hk
    rw [shrink_last b pos _ hk, shrink_split] at e'
    rw [e] at hl
    rw [e'] at hl'
    simp only [List.length_append, List.length_singleton] at hl'
    omega
  have h1 := key h h'
  have h2 := key h' h
  omega

theorem takeBits_drawn (b : ℕ → Bool) (hb : Rec b) (h79 : b 79 = true) (n : ℕ) :
    ∀ (g : Grain) (pos : ℕ), Rep b g pos →
      ∃ l g' m, takeBits n g = .ok (l, g') ∧ Drawn b pos n l m ∧ Rep b g' (pos + 2 * m) := by
  induction n with
  | zero =>
    intro g pos hr
    exact ⟨[], g, 0, rfl, ⟨by simp [Spec.shrink], rfl, Or.inl rfl⟩, by simpa using hr⟩
  | succ n ih =>
    intro g pos hr
    obtain ⟨k, g1, hk, h1, h2, e1, r1⟩ := next_spec b hb h79 g pos hr
    obtain ⟨l, g2, m, e2, ⟨h3, h4, h5⟩, r2⟩ := ih g1 _ r1
    refine ⟨b (pos + 2 * k + 1) :: l, g2, (k + 1) + m, ?_, ⟨?_, by simp [h4], Or.inr ?_⟩, ?_⟩
    · simp only [takeBits, next, e1 120 le_rfl, e2, bind, Except.bind, pure, Except.pure]
    · rw [shrink_split, shrink_skip b pos k h1 h2, h3]
      rfl
    · rcases h5 with rfl | h5
      · simpa using h1
      · rcases Nat.eq_zero_or_pos m with rfl | hm
        · simpa using h1
        · rw [← h5]; congr 1; omega
    · convert r2 using 1; omega

theorem evalBits_succ (fuel w cnt acc : ℕ) : evalBits (fuel + 1) w cnt acc =
    if (step2 w).testBit 1 then
      (match cnt with
        | 0 => some (acc * 2 + (step2 w) % 2, step2 w)
        | c + 1 => evalBits fuel (step2 w) c (acc * 2 + (step2 w) % 2))
    else evalBits fuel (step2 w) cnt acc := by
  have h : evalBits (fuel + 1) w cnt acc = force (step2 w) fun w' =>
      Bool.rec (evalBits fuel w' cnt acc)
        (force (Nat.add (Nat.mul acc 2) (Nat.mod w' 2)) fun acc' =>
          Nat.rec (some (acc', w')) (fun c _ => evalBits fuel w' c acc') cnt)
        (Nat.ble 2 (Nat.mod w' 4)) := rfl
  rw [h, force_eq, force_eq]
  have ht : Nat.ble 2 (Nat.mod (step2 w) 4) = (step2 w).testBit 1 := by
    rw [Nat.testBit_eq_decide_div_mod_eq]
    show Nat.ble 2 ((step2 w) % 4) = decide (step2 w / 2 ^ 1 % 2 = 1)
    rw [Bool.eq_iff_iff, Nat.ble_eq, decide_eq_true_iff]
    omega
  rw [ht]
  cases (step2 w).testBit 1 with
  | false => rfl
  | true => cases cnt <;> rfl

/-- What the fast evaluator returns is the next group of bits of the shrunk stream. -/
theorem evalBits_spec (b : ℕ → Bool) (hb : Rec b) (fuel : ℕ) : ∀ (w pos cnt acc v w' : ℕ), WRep b w pos →
    evalBits fuel w cnt acc = some (v, w') →
    ∃ l m, Drawn b pos (cnt + 1) l m ∧ v = l.foldl (fun a c => 2 * a + c.toNat) acc ∧
      WRep b w' (pos + 2 * m) := by
  induction fuel with
  | zero => intro w pos cnt acc v w' _ h; cases h
  | succ fuel ih =>
    intro w pos cnt acc v w' hw h
    have hs := step2_spec b hb w pos hw
    have h1 : (step2 w).testBit 1 = b pos := by
      rw [hs.2.2 1 (by omega)]; congr 1
    have h0 : (step2 w) % 2 = (b (pos + 1)).toNat := by
      have : (step2 w).testBit 0 = b (pos + 1) := by rw [hs.2.2 0 (by omega)]; congr 1
      rw [← this, Nat.testBit_zero]
      rcases Nat.mod_two_eq_zero_or_one (step2 w) with e | e <;> simp [e]
    rw [evalBits_succ, h1] at h
    cases hbp : b pos with
    | false =>
      rw [hbp] at h
      obtain ⟨l, m, ⟨e1, e2, e3⟩, e4, e5⟩ := ih _ _ _ _ _ _ hs h
      refine ⟨l, m + 1, ⟨?_, e2, Or.inr ?_⟩, e4, ?_⟩
      · rw [shrink_succ, hbp]; simpa using e1
      · rcases e3 with rfl | e3
        · rw [e1] at e2; simp [Spec.shrink] at e2
        · rcases Nat.eq_zero_or_pos m with rfl | hm
          · rw [e1] at e2; simp [Spec.shrink] at e2
          · rw [← e3]; congr 1; omega
      · convert e5 using 1; omega
    | true =>
      rw [hbp, h0] at h
      simp only [if_true] at h
      cases cnt with
      | zero =>
        simp only [Option.some.injEq, Prod.mk.injEq] at h
        obtain ⟨rfl, rfl⟩ := h
        refine ⟨[b (pos + 1)], 1, ⟨?_, rfl, Or.inr (by simpa using hbp)⟩, ?_, hs⟩
        · rw [show 1 = 0 + 1 from rfl, shrink_succ, hbp]; simp [Spec.shrink]
        · simp [Nat.mul_comm]
      | succ c =>
        simp only at h
        obtain ⟨l, m, ⟨e1, e2, e3⟩, e4, e5⟩ := ih _ _ _ _ _ _ hs h
        refine ⟨b (pos + 1) :: l, m + 1, ⟨?_, by simp [e2], Or.inr ?_⟩, ?_, ?_⟩
        · rw [shrink_succ, hbp, ← e1]; rfl
        · rcases e3 with rfl | e3
          · simpa using hbp
          · rcases Nat.eq_zero_or_pos m with rfl | hm
            · simpa using hbp
            · rw [← e3]; congr 1; omega
        · rw [e4, List.foldl_cons, Nat.mul_comm]
        · convert e5 using 1; omega

/-- The generator delivers the groups of `numBits` bits with values `vs` and is then in state `g'`. -/
inductive Groups (numBits : ℕ) : Grain → List ℕ → Grain → Prop
  | nil (g) : Groups numBits g [] g
  | cons (g g1 g' l vs) : takeBits numBits g = .ok (l, g1) → Groups numBits g1 vs g' →
      Groups numBits g (Spec.ofBitsMSB l :: vs) g'

theorem evalDraws_succ (numBits count w : ℕ) : evalDraws numBits (count + 1) w =
    match evalBits 2000 w (numBits - 1) 0 with
    | none => none
    | some (v, w') => (evalDraws numBits count w').map (v :: ·) := rfl

theorem evalDraws_spec (b : ℕ → Bool) (hb : Rec b) (h79 : b 79 = true) (numBits : ℕ) (hn : 0 < numBits)
    (count : ℕ) : ∀ (w pos : ℕ) (g : Grain) (vs : List ℕ), WRep b w pos → Rep b g pos →
    evalDraws numBits count w = some vs → ∃ g', Groups numBits g vs g' := by
  induction count with
  | zero =>
    intro w pos g vs _ _ h
    obtain rfl : [] = vs := Option.some.inj h
    exact ⟨g, .nil g⟩
  | succ count ih =>
    intro w pos g vs hw hg h
    rw [evalDraws_succ] at h
    cases he : evalBits 2000 w (numBits - 1) 0 with
    | none => rw [he] at h; cases h
    | some x =>
      obtain ⟨v, w'⟩ := x
      rw [he] at h
      simp only [Option.map_eq_some_iff] at h
      obtain ⟨vs', h1, rfl⟩ := h
      obtain ⟨l, m, hd, hv, hw'⟩ := evalBits_spec b hb 2000 w pos _ _ _ _ hw he
      obtain ⟨l', g1, m', ht, hd', hg1⟩ := takeBits_drawn b hb h79 numBits g pos hg
      rw [Nat.sub_add_cancel hn] at hd
      obtain rfl := hd.unique hd'
      obtain rfl : l = l' := hd.1.trans hd'.1.symm
      obtain ⟨g', hg'⟩ := ih w' _ g1 vs' hw' hg1 h1
      exact ⟨g', by rw [hv]; exact .cons g g1 g' l vs' ht hg'⟩

theorem evalStart_spec (b : ℕ → Bool) (hb : Rec b) (seed : ℕ) (hlt : seed < 2 ^ 80)
    (hs : ∀ i, i < 80 → b i = seed.testBit (79 - i)) : WRep b (evalStart seed) 240 := by
  have key : ∀ k, WRep b (Nat.rec seed (fun _ w => force w step2) k : ℕ) (80 + 2 * k) := by
    intro k
    induction k with
    | zero =>
      refine ⟨hlt, by omega, fun j hj => ?_⟩
      rw [hs _ (by omega)]
      show seed.testBit j = _
      congr 1; omega
    | succ k ih =>
      have := step2_spec b hb _ _ ih
      show WRep b (force _ step2) _
      rw [force_eq]
      exact this
  exact key 80

/-- Entry point: a run of the fast evaluator from the seed gives the groups delivered by a generator made by
`Grain::new`. -/
theorem evalDraws_new (sbox n t rf rp numBits count : ℕ) (h1 : sbox < 2 ^ 4) (h2 : n < 2 ^ 12)
    (h3 : t < 2 ^ 12) (h4 : rf < 2 ^ 10) (h5 : rp < 2 ^ 10) (hn : 0 < numBits) (vs : List ℕ)
    (h : evalDraws numBits count (evalStart (Spec.grainSeed sbox n t rf rp)) = some vs) :
    ∃ g g', Grain.new sbox n t rf rp = .ok g ∧ Groups numBits g vs g' := by
  obtain ⟨g, hg, hr⟩ := new_spec sbox n t rf rp h1 h2 h3 h4 h5
  have hlt : Spec.grainSeed sbox n t rf rp < 2 ^ 80 := by
    unfold Spec.grainSeed; norm_num at *; omega
  have hw := evalStart_spec (Spec.lfsr (Spec.grainSeed sbox n t rf rp)) (lfsr_rec _) _ hlt
    (fun i hi => by rw [Spec.lfsr, if_pos hi])
  obtain ⟨g', hg'⟩ := evalDraws_spec _ (lfsr_rec _) (seed_79 _ _ _ _ _) numBits hn count _ _ g vs hw hr h
  exact ⟨g, g', hg, hg'⟩

end Base.Grain
