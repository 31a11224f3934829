import Verif.Base.Permute

/-!
# Model of the native sponge, domains and hash functions

Models `poseidon-base/src/primitives.rs` lines 151-540 and `poseidon-base/src/hash.rs`.

The sponge functions of the code are generic over `S: CachedSpec`, from which they only use
`permute::<F, S, T, RATE>(state, S::cached_mds(), S::cached_round_constants())`. The model passes that
state transformer as the argument `perm`; `HashApi` below instantiates it.
-/

namespace Base

/-- `Absorbing<F, RATE>`, primitives.rs:191. -/
structure Absorbing (F : Type) (RATE : ℕ) where
  val : Fin RATE → Option F

/-- `Squeezing<F, RATE>`, primitives.rs:195. -/
structure Squeezing (F : Type) (RATE : ℕ) where
  val : Fin RATE → Option F

/-- `Sponge<F, S, M, T, RATE>`, primitives.rs:214-225. -/
structure Sponge (F : Type) (M : Type) (T : ℕ) where
  mode : M
  state : State F T
  layout : ℕ

section
variable {F : Type} [Field F] {T RATE : ℕ} [NeZero T]

/-- The loop of primitives.rs:166-168:
`for (word, value) in state.iter_mut().skip(layout_offset).zip(input.iter())`. Iteration `k` touches
word `layout + k` with `input[k]`; `zip` stops when the state ends. -/
def addInput (layout : ℕ) (input : Fin RATE → Option F) (state : State F T) :
    Except Panic (State F T) :=
  (List.finRange RATE).foldlM (fun st k =>
    if h : layout + k.val < T then
      match input k with
      | none => .error .notPadded
      | some v => .ok (Function.update st ⟨layout + k.val, h⟩ (st ⟨layout + k.val, h⟩ + v))
    else .ok st) state

/-- The output of `poseidon_sponge`, primitives.rs:173-177: a copy of the first `RATE` state words
(`None` beyond the state). -/
def outputOf (state : State F T) : Fin RATE → Option F :=
  fun k => if h : k.val < T then some (state ⟨k.val, h⟩) else none

/-- `poseidon_sponge`, primitives.rs:151-178. Returns the new state and the squeezing mode.
`T - RATE` is a `usize` subtraction: it panics in debug builds when `RATE > T`. -/
def poseidonSponge (perm : State F T → State F T) (state : State F T)
    (input : Option (Absorbing F RATE × ℕ)) : Except Panic (State F T × Squeezing F RATE) := do
  let state ← match input with
    | none => .ok state
    | some (a, layout) =>
      if RATE ≤ T then
        if layout ≤ T - RATE then addInput layout a.val state else .error .layout
      else .error .overflow
  let state := perm state
  return (state, ⟨outputOf state⟩)

/-- `Absorbing::init_with`, primitives.rs:200-210. The collected vector has `max 1 RATE` entries, so
the conversion to `[_; RATE]` panics for `RATE = 0`. -/
def Absorbing.initWith (v : F) : Except Panic (Absorbing F RATE) :=
  if RATE = 0 then .error .tryInto
  else .ok ⟨fun k => if k.val = 0 then some v else none⟩

/-- The capacity position `(RATE + layout) % T`, primitives.rs:238 and 250. -/
def capIndex (RATE layout : ℕ) : Fin T :=
  ⟨(RATE + layout) % T, Nat.mod_lt _ (Nat.pos_of_ne_zero (NeZero.ne T))⟩

/-- `Sponge::new`, primitives.rs:235-246. -/
def Sponge.new (cap : F) (layout : ℕ) : Sponge F (Absorbing F RATE) T :=
  { mode := ⟨fun _ => none⟩
    state := Function.update (fun _ => 0) (capIndex RATE layout) cap
    layout := layout }

/-- `Sponge::update_capacity`, primitives.rs:249-251. -/
def Sponge.updateCapacity (s : Sponge F (Absorbing F RATE) T) (cap : F) :
    Sponge F (Absorbing F RATE) T :=
  { s with state := Function.update s.state (capIndex RATE s.layout)
                      (s.state (capIndex RATE s.layout) + cap) }

/-- `Sponge::absorb`, primitives.rs:254-270: fill the first `None` entry; if there is none, run
`poseidon_sponge` and restart the mode with `init_with(value)`. -/
def Sponge.absorb (perm : State F T → State F T) (s : Sponge F (Absorbing F RATE) T) (v : F) :
    Except Panic (Sponge F (Absorbing F RATE) T) :=
  match (List.finRange RATE).find? (fun k => (s.mode.val k).isNone) with
  | some k => .ok { s with mode := ⟨Function.update s.mode.val k (some v)⟩ }
  | none => do
    let (state, _) ← poseidonSponge (RATE := RATE) perm s.state (some (s.mode, s.layout))
    let mode ← Absorbing.initWith v
    return { mode := mode, state := state, layout := s.layout }

/-- `Sponge::finish_absorbing`, primitives.rs:273-287. -/
def Sponge.finishAbsorbing (perm : State F T → State F T) (s : Sponge F (Absorbing F RATE) T) :
    Except Panic (Sponge F (Squeezing F RATE) T) := do
  let (state, mode) ← poseidonSponge perm s.state (some (s.mode, s.layout))
  return { mode := mode, state := state, layout := s.layout }

/-- The inner `for` loop of `squeeze`, primitives.rs:300-304: take the first `Some` entry. -/
def takeFirst (m : Squeezing F RATE) : Option (F × Squeezing F RATE) :=
  match (List.finRange RATE).find? (fun k => (m.val k).isSome) with
  | none => none
  | some k => (m.val k).map fun e => (e, ⟨Function.update m.val k none⟩)

/-- `Sponge::squeeze`, primitives.rs:298-314. The `loop` runs its body at most twice when
`RATE > 0`: after `poseidon_sponge` the first entry is `Some`. If it is not (`RATE = 0`), the loop never
exits, which the model reports as `diverge`. -/
def Sponge.squeeze (perm : State F T → State F T) (s : Sponge F (Squeezing F RATE) T) :
    Except Panic (F × Sponge F (Squeezing F RATE) T) :=
  match takeFirst s.mode with
  | some (e, m) => .ok (e, { s with mode := m })
  | none => do
    let (state, mode) ← poseidonSponge (RATE := RATE) perm s.state none
    match takeFirst mode with
    | some (e, m) => .ok (e, { s with mode := m, state := state })
    | none => .error .diverge

/-- `trait Domain`, primitives.rs:318-337: the capacity, the padding (number of zero words; all
implementations repeat `F::ZERO`) and the layout of the three domain types of the crate. -/
inductive DomainKind where
  /-- `ConstantLength<L>`, primitives.rs:343-369 -/
  | constantLength (L : ℕ)
  /-- `ConstantLengthIden3<L>`, primitives.rs:373-396 -/
  | constantLengthIden3 (L : ℕ)
  /-- `VariableLengthIden3`, primitives.rs:400-422 -/
  | variableLengthIden3

/-- `Domain::initial_capacity_element`, primitives.rs:354-358, 385-387, 410-412. `from_u128` is the
cast of a natural number into the field. (`(L as u128) << 64` loses nothing for `L < 2^64`.) -/
def DomainKind.initialCapacity : DomainKind → F
  | .constantLength L => ((L * 2 ^ 64 : ℕ) : F)
  | .constantLengthIden3 _ => 0
  | .variableLengthIden3 => 0

/-- `Domain::padding`, primitives.rs:360-368, 389-391, 414-417. `RATE = 0` divides by zero. -/
def DomainKind.padding (RATE : ℕ) : DomainKind → ℕ → Except Panic (List F)
  | .constantLength L, n => constPad L n
  | .constantLengthIden3 L, n => constPad L n
  | .variableLengthIden3, n =>
    if RATE = 0 then .error .overflow
    else
      let k := n % RATE
      .ok (List.replicate (if k = 0 then 0 else RATE - k) 0)
where
  constPad (L n : ℕ) : Except Panic (List F) :=
    if n = L then
      if RATE = 0 then .error .overflow
      else
        let k := (L + RATE - 1) / RATE
        .ok (List.replicate (k * RATE - L) 0)
    else .error .length

/-- `Domain::layout`, primitives.rs:334-336, 393-395, 419-421. (`width - RATE` underflows when
`RATE > T`; the sponge reports that case itself.) -/
def DomainKind.layout (RATE : ℕ) : DomainKind → ℕ → ℕ
  | .constantLength _, _ => 0
  | .constantLengthIden3 _, width => width - RATE
  | .variableLengthIden3, width => width - RATE

/-- `Hash<F, S, D, T, RATE>`, primitives.rs:426-435: only the sponge carries data. -/
abbrev Hash (F : Type) (T RATE : ℕ) := Sponge F (Absorbing F RATE) T

/-- `Hash::init`, primitives.rs:465-470. -/
def Hash.init (D : DomainKind) : Hash F T RATE :=
  Sponge.new D.initialCapacity (D.layout RATE T)

/-- The common tail of the three `hash` functions: absorb all the words one by one, then
`finish_absorbing().squeeze()`, primitives.rs:488-494, 510-516, 530-538. -/
def absorbAllAndSqueeze (perm : State F T → State F T) (s : Hash F T RATE) (words : List F) :
    Except Panic F := do
  let s ← words.foldlM (fun s v => s.absorb perm v) s
  let s ← s.finishAbsorbing perm
  let (out, _) ← s.squeeze perm
  return out

/-- `Hash<_, _, ConstantLength<L>, _, _>::hash`, primitives.rs:487-495. `message : [F; L]`. -/
def Hash.hashConst {L : ℕ} (perm : State F T → State F T) (s : Hash F T RATE) (message : Fin L → F) :
    Except Panic F := do
  let pad ← (DomainKind.constantLength L).padding RATE L
  absorbAllAndSqueeze perm s (List.ofFn message ++ pad)

/-- `Hash<_, _, ConstantLengthIden3<L>, _, _>::hash`, primitives.rs:507-517. -/
def Hash.hashIden3 {L : ℕ} (perm : State F T → State F T) (s : Hash F T RATE) (message : Fin L → F)
    (domain : F) : Except Panic F := do
  let s := Sponge.updateCapacity s domain
  let pad ← (DomainKind.constantLength L).padding RATE L
  absorbAllAndSqueeze perm s (List.ofFn message ++ pad)

/-- `Hash<_, _, VariableLengthIden3, _, _>::hash_with_cap`, primitives.rs:528-539. `cap` is a `u128`; the
model allows every natural number. -/
def Hash.hashWithCap (perm : State F T → State F T) (s : Hash F T RATE) (message : List F) (cap : ℕ) :
    Except Panic F := do
  let s := Sponge.updateCapacity s (cap : F)
  let pad ← DomainKind.variableLengthIden3.padding RATE message.length
  absorbAllAndSqueeze perm s (message ++ pad)

end

/-! ## `poseidon-base/src/hash.rs` -/

section
variable {F : Type} [Field F]

/-- `HASHABLE_DOMAIN_SPEC`, hash.rs:33-36; the argument is the cargo feature `legacy`. -/
def domainSpec (legacy : Bool) : ℕ := if legacy then 1 else 2 ^ 64

/-- `<Fr as Hashable>::hash_with_domain`, hash.rs:90-92, on the hasher returned by `hasher()`
(`Hash::init`, hash.rs:94-99; the cache is modelled in `Base/Cache.lean`). -/
def hashWithDomain (perm : State F 3 → State F 3) (inp : Fin 2 → F) (domain : F) : Except Panic F :=
  Hash.hashIden3 (RATE := 2) perm (Hash.init (.constantLengthIden3 2)) inp domain

/-- `Hashable::hash`, hash.rs:47-49. -/
def hash2 (perm : State F 3 → State F 3) (inp : Fin 2 → F) : Except Panic F :=
  hashWithDomain perm inp 0

/-- `msg.len() as u128 * HASHABLE_DOMAIN_SPEC`, hash.rs:107: a `u128` product. -/
def defaultCap (legacy : Bool) (len : ℕ) : Except Panic ℕ :=
  if len * domainSpec legacy < 2 ^ 128 then .ok (len * domainSpec legacy) else .error .overflow

/-- `<Fr as MessageHashable>::hash_msg`, hash.rs:105-108. `unwrap_or` evaluates its argument in any
case, so the product is computed even when `cap` is given. -/
def hashMsg (legacy : Bool) (perm : State F 3 → State F 3) (msg : List F) (cap : Option ℕ) :
    Except Panic F := do
  let dflt ← defaultCap legacy msg.length
  Hash.hashWithCap (RATE := 2) perm (Hash.init .variableLengthIden3) msg (cap.getD dflt)

/-- `Hashable::hash_block_size`, hash.rs:54-63; the argument is the cargo feature `short`. -/
def hashBlockSize (short : Bool) (S : RSpec F) : ℕ :=
  if short then 1 + S.fullRounds else 1 + S.fullRounds + (S.partialRounds + 1) / 2

end
end Base

namespace Base
variable {F : Type} [Field F] {T RATE : ℕ} [NeZero T]

/-- `n` successive calls of `squeeze` (a caller's loop, not a function of the crate). -/
def squeezeMany (perm : State F T → State F T) :
    ℕ → Sponge F (Squeezing F RATE) T → Except Panic (List F × Sponge F (Squeezing F RATE) T)
  | 0, s => .ok ([], s)
  | n + 1, s => do
    let (x, s) ← s.squeeze perm
    let (xs, s) ← squeezeMany perm n s
    return (x :: xs, s)

end Base
