import Verif.Props.ArgumentKzgOracleTable
import Verif.Props.CodeHash

/-!
# Proofs about byte strings: C115

The circuit of C95 with the rows of byte strings in its columns.
-/

set_option linter.unusedVariables false

namespace Props
open Halo2 Circuit Circuit.Table Base Base.Bn256 Polynomial

/-! ### Specification -/

/-- Byte strings with their claimed digests. The strings are not empty, and shorter than `2^63`. -/
def IsStrings (bs : List (List ℕ × Fr)) : Prop := ∀ b ∈ bs, IsBytes b.1 ∧ b.1.length < 2 ^ 63

/-- The rows for all byte strings, one after the other, in words of `k` bytes. -/
def stringRows (legacy : Bool) (k : ℕ) (bs : List (List ℕ × Fr)) : List (Fin 6 → Fr) :=
  bs.flatMap fun b => messageRows (domainSpec legacy) (2 * k) b.2 true b.1.length (byteRows k b.1)

/-- The five columns of the circuit of C95 hold these rows. -/
def StringCells (g : Grid Fr) (legacy : Bool) (k : ℕ) (bs : List (List ℕ × Fr)) : Prop :=
  ∀ i (hi : i < (stringRows legacy k bs).length), ∀ j : Fin 5, g.advice (6 + j) i = codeReq (stringRows legacy k bs)[i] j

/-! ### Lemmas -/

theorem stringRows_eq (legacy : Bool) (k : ℕ) (bs : List (List ℕ × Fr)) :
    codeRows legacy (2 * k) (bs.map fun b => (b.1.length, byteRows k b.1, b.2)) = stringRows legacy k bs := by
  rw [codeRows, List.flatMap_map, stringRows]

theorem stringRows_length (legacy : Bool) (k : ℕ) (bs : List (List ℕ × Fr)) :
    (stringRows legacy k bs).length = (bs.map fun b => (byteRows k b.1).length).sum := by
  rw [← stringRows_eq, codeRows, (messages_bare _).2, List.map_map]
  rfl

theorem messageRows_length (SPEC K : ℕ) (D : Fr) (f : Bool) (c : ℕ) (ws : List (Fr × Fr)) :
    (messageRows SPEC K D f c ws).length = ws.length := by
  induction ws generalizing f c with
  | nil => rfl
  | cons w ws ih =>
    obtain ⟨a, b⟩ := w
    rw [messageRows, List.length_cons, ih, List.length_cons]

theorem messageRows_inj {SPEC K : ℕ} {D D' : Fr} {f : Bool} {c c' : ℕ} {ws ws' : List (Fr × Fr)}
    (e : (messageRows SPEC K D f c ws).map codeReq = (messageRows SPEC K D' f c' ws').map codeReq) : ws = ws' := by
  induction ws generalizing f c c' ws' with
  | nil =>
    cases ws' with
    | nil => rfl
    | cons w' ws' => simp [messageRows] at e
  | cons w ws ih =>
    cases ws' with
    | nil => simp [messageRows] at e
    | cons w' ws' =>
      obtain ⟨a, b⟩ := w
      obtain ⟨a', b'⟩ := w'
      rw [messageRows, messageRows, List.map_cons, List.map_cons, List.cons.injEq] at e
      have h1 : a = a' := congrFun e.1 1
      have h2 : b = b' := congrFun e.1 2
      rw [ih e.2, h1, h2]

theorem control_inj (legacy : Bool) {c c' : ℕ} (h : c < 2 ^ 63) (h' : c' < 2 ^ 63)
    (e : ((c * domainSpec legacy : ℕ) : Fr) = ((c' * domainSpec legacy : ℕ) : Fr)) : c = c' := by
  have hd : 0 < domainSpec legacy ∧ domainSpec legacy ≤ 2 ^ 64 := by
    unfold domainSpec
    cases legacy <;> norm_num
  have key : ∀ n < 2 ^ 63, n * domainSpec legacy < Base.Bn256.r := fun n hn =>
    lt_of_le_of_lt (Nat.mul_le_mul hn.le hd.2) (by norm_num [Base.Bn256.r])
  have := (ZMod.natCast_eq_natCast_iff' _ _ _).mp e
  rw [Nat.mod_eq_of_lt (key c h), Nat.mod_eq_of_lt (key c' h')] at this
  exact Nat.eq_of_mul_eq_mul_right hd.1 this

/-! ### Theorems -/

/-- **C115**, what the columns mean: the rows determine the byte strings and digests. -/
theorem C115_columns (legacy : Bool) {k : ℕ} (hk : 0 < k) (hk' : k ≤ 31) {bs bs' : List (List ℕ × Fr)} (h : IsStrings bs)
    (h' : IsStrings bs') {g : Grid Fr} (hl : (stringRows legacy k bs).length = (stringRows legacy k bs').length)
    (hg : StringCells g legacy k bs) (hg' : StringCells g legacy k bs') : bs = bs' := by
  have e : (stringRows legacy k bs).map codeReq = (stringRows legacy k bs').map codeReq := by
    refine List.ext_getElem (by rw [List.length_map, List.length_map, hl]) fun i hi hi' => ?_
    rw [List.length_map] at hi hi'
    rw [List.getElem_map, List.getElem_map]
    funext j
    rw [← hg i hi j, ← hg' i hi' j]
  clear hg hg' hl
  have hne : ∀ b : List ℕ × Fr, IsBytes b.1 → ∃ w ws, byteRows k b.1 = w :: ws := fun b hb =>
    List.exists_cons_of_ne_nil (byteRows_ne hk hb)
  induction bs generalizing bs' with
  | nil =>
    cases bs' with
    | nil => rfl
    | cons b' bs' =>
      obtain ⟨w, ws, hw⟩ := hne b' (h' b' (by simp)).1
      rw [stringRows, stringRows, List.flatMap_cons, hw] at e
      simp [messageRows] at e
  | cons b bs ih =>
    obtain ⟨w, ws, hw⟩ := hne b (h b (by simp)).1
    cases bs' with
    | nil =>
      rw [stringRows, stringRows, List.flatMap_cons, hw] at e
      simp [messageRows] at e
    | cons b' bs' =>
      obtain ⟨w', ws', hw'⟩ := hne b' (h' b' (by simp)).1
      obtain ⟨h1, h2⟩ := h b (by simp)
      obtain ⟨h1', h2'⟩ := h' b' (by simp)
      have e0 : codeReq ![b.2, w.1, w.2, ((b.1.length * domainSpec legacy : ℕ) : Fr), 0, 1] =
          codeReq ![b'.2, w'.1, w'.2, ((b'.1.length * domainSpec legacy : ℕ) : Fr), 0, 1] := by
        have := e
        rw [stringRows, stringRows, List.flatMap_cons, List.flatMap_cons, hw, hw'] at this
        exact (List.cons.inj this).1
      have hD : b.2 = b'.2 := congrFun e0 0
      have hc : b.1.length = b'.1.length := control_inj legacy h2 h2' (congrFun e0 3)
      rw [stringRows, stringRows, List.flatMap_cons, List.flatMap_cons, List.map_append, List.map_append] at e
      obtain ⟨p1, p2⟩ := List.append_inj e (by
        rw [List.length_map, List.length_map, messageRows_length, messageRows_length, length_byteRows hk, length_byteRows hk, hc])
      rw [ih (fun x hx => h x (List.mem_cons_of_mem _ hx)) (fun x hx => h' x (List.mem_cons_of_mem _ hx)) p2,
        Prod.ext (byteRows_inj hk hk' h1 h1' hc (messageRows_inj p1)) hD]

/-- **C115.** The circuit of C95 with step `2 * k`, whose key is made before the byte strings are known. Proofs show that the digests
of all byte strings in its columns are right, or that the table holds a collision; honest provers show any byte strings with right digests. -/
theorem C115_proofs {kind : ChipKind} {ch : Chip Fr 3} (hch : bnChip kind = .ok ch) (short short' legacy : Bool) (mode : LoadMode)
    {k calcs m kk : ℕ} (hk : 0 < k) (hm : m < calcs) (hkk : kk ≤ 28) (h1 : 2 * k + 8 ≤ 2 ^ kk) (h2 : calcs + 7 ≤ 2 ^ kk)
    (h3 : kind.rows * calcs + 6 ≤ 2 ^ kk) {x : Run Fr} (hx : x = codeRun ch short legacy mode (2 * k) .empty calcs) :
    ∃ L, x.load = .ok L ∧ ∃ K,
      keygenWith x.configured.2 [codeLookup] (L.ops ++ hostOps (q := 5) m 0) (2 ^ kk) (omega kk) delta = .ok K ∧
      (K.slack ≤ 58 * 2 ^ kk ∧ K.loss ≤ 19 * 2 ^ kk) ∧
      (K.Proves fun g => ∀ bs, IsStrings bs → (stringRows legacy k bs).length = m → StringCells g legacy k bs →
        ∀ b ∈ bs, bytesHash short' legacy k b.1 = .ok b.2 ∨ TableCollision x g short' b.2) ∧
      ∀ bs, IsStrings bs → (stringRows legacy k bs).length = m → (∀ b ∈ bs, bytesHash short' legacy k b.1 = .ok b.2) →
        K.Shows fun g => StringCells g legacy k bs := by
  obtain ⟨L, hL, K, hK, hs, hp, hc⟩ := C100_code hch short short' legacy mode (STEP := 2 * k) (by omega) hm hkk h1 h2 h3 hx
  have el : x.legacy = legacy := by rw [hx]; rfl
  have hmsgs : ∀ bs, IsStrings bs → ∀ msg ∈ bs.map fun b : List ℕ × Fr => (b.1.length, byteRows k b.1, b.2),
      0 < msg.1 ∧ msg.1 < 2 ^ 64 ∧ msg.2.1.length = (msg.1 + 2 * k - 1) / (2 * k) := by
    intro bs hbs msg hmsg
    obtain ⟨b, hb, rfl⟩ := List.mem_map.mp hmsg
    obtain ⟨q1, q2⟩ := hbs b hb
    exact ⟨List.length_pos_iff.mpr q1.ne_nil, lt_trans q2 (by norm_num), length_byteRows hk _⟩
  refine ⟨L, hL, K, hK, hs, hp.mono fun g hg bs hbs hlen hcells b hb => ?_, fun bs hbs hlen hv => ?_⟩
  · have hg := hg _ (hmsgs bs hbs)
    rw [stringRows_eq] at hg
    have hg := hg hlen hcells _ (List.mem_map.mpr ⟨b, hb, rfl⟩)
    rw [bytesHash_eq short' legacy hk (hbs b hb).1 (hbs b hb).2, TableCollision, el]
    exact hg
  · have hc := hc _ (hmsgs bs hbs)
    rw [stringRows_eq] at hc
    refine hc hlen fun msg hmsg => ?_
    obtain ⟨b, hb, rfl⟩ := List.mem_map.mp hmsg
    rw [← bytesHash_eq short' legacy hk (hbs b hb).1 (hbs b hb).2]
    exact hv b hb

/-- **C115**, two proofs: two provers, possibly with different numbers of rows, that convince the verifier of byte strings with one digest
have the same byte string, or show a weakness of the permutation, or one of their tables holds a collision. -/
theorem C115_two {kind : ChipKind} {ch : Chip Fr 3} (hch : bnChip kind = .ok ch) (short short' legacy : Bool) (mode : LoadMode)
    {k calcs calcs' m m' kk kk' : ℕ} (hk : 0 < k) (hk' : k ≤ 31) (hm : m < calcs) (hm' : m' < calcs') (hkk : kk ≤ 28) (hkk' : kk' ≤ 28)
    (h1 : 2 * k + 8 ≤ 2 ^ kk) (h1' : 2 * k + 8 ≤ 2 ^ kk') (h2 : calcs + 7 ≤ 2 ^ kk) (h2' : calcs' + 7 ≤ 2 ^ kk')
    (h3 : kind.rows * calcs + 6 ≤ 2 ^ kk) (h3' : kind.rows * calcs' + 6 ≤ 2 ^ kk') {x x' : Run Fr}
    (hx : x = codeRun ch short legacy mode (2 * k) .empty calcs) (hx' : x' = codeRun ch short legacy mode (2 * k) .empty calcs') :
    ∃ L L', x.load = .ok L ∧ x'.load = .ok L' ∧ ∃ K K',
      keygenWith x.configured.2 [codeLookup] (L.ops ++ hostOps (q := 5) m 0) (2 ^ kk) (omega kk) delta = .ok K ∧
      keygenWith x'.configured.2 [codeLookup] (L'.ops ++ hostOps (q := 5) m' 0) (2 ^ kk') (omega kk') delta = .ok K' ∧
      ∀ bs bs', IsStrings bs → IsStrings bs' → (stringRows legacy k bs).length = m → (stringRows legacy k bs').length = m' →
      ∀ P P' : Prover Fr, P.Short K.n → P'.Short K'.n → StringCells (K.grid P.advice) legacy k bs →
      StringCells (K'.grid P'.advice) legacy k bs' → K.slack * Base.Bn256.r ^ 4 < Nat.card {c // P.Convinces K c} →
      K'.slack * Base.Bn256.r ^ 4 < Nat.card {c // P'.Convinces K' c} → ∀ b b' D, (b, D) ∈ bs → (b', D) ∈ bs' →
      b = b' ∨ Collide.Weakness bnTriples ((b.length * domainSpec legacy : ℕ) : Fr) ((b'.length * domainSpec legacy : ℕ) : Fr)
        (byteRows k b) (byteRows k b') ∨ TableCollision x (K.grid P.advice) short' D ∨ TableCollision x' (K'.grid P'.advice) short' D := by
  obtain ⟨L, hL, K, hK, -, hp, -⟩ := C115_proofs hch short short' legacy mode hk hm hkk h1 h2 h3 hx
  obtain ⟨L', hL', K', hK', -, hp', -⟩ := C115_proofs hch short short' legacy mode hk hm' hkk' h1' h2' h3' hx'
  refine ⟨L, L', hL, hL', K, K', hK, hK', fun bs bs' hb hb' hl hl' P P' s s' c c' v v' b b' D i i' => ?_⟩
  have q := (hp.1 P s).resolve_right (by rw [card_fr]; exact not_le.mpr v) bs hb hl c _ i
  have q' := (hp'.1 P' s').resolve_right (by rw [card_fr]; exact not_le.mpr v') bs' hb' hl' c' _ i'
  rcases q with q | q
  · rcases q' with q' | q'
    · rcases C112_bytes short' legacy hk hk' (hb _ i).1 (hb' _ i').1 (hb _ i).2 (hb' _ i').2 (q.trans q'.symm) with w | w
      · exact .inl w
      · exact .inr (.inl w)
    · exact .inr (.inr (.inr q'))
  · exact .inr (.inr (.inl q))

section
variable {G G2 GT : Type} [AddCommGroup G] [Module Fr G] [AddCommGroup G2] [Module Fr G2] [AddCommGroup GT] [Module Fr GT]

/-- **C115**, non-interactive proofs with commitments, as in C103: whatever the secret and the pairing, a player that makes `Q` moves and
does not find the secret as a root has a proof accepted with a wrong digest of a byte string, and no collision in the table, for at most
`Q * (59 * 2^kk + 1735)` in `r` of all oracles; and byte strings with right digests are accepted for all oracles but `19 * 2^kk + 578`
in `r`. -/
theorem C115_commitments {kind : ChipKind} {ch : Chip Fr 3} (hch : bnChip kind = .ok ch) (short short' legacy : Bool) (mode : LoadMode)
    {k calcs m kk : ℕ} (hk : 0 < k) (hm : m < calcs) (hkk : kk ≤ 28) (h1 : 2 * k + 8 ≤ 2 ^ kk) (h2 : calcs + 7 ≤ 2 ^ kk)
    (h3 : kind.rows * calcs + 6 ≤ 2 ^ kk) {x : Run Fr} (hx : x = codeRun ch short legacy mode (2 * k) .empty calcs)
    (E : Pairing Fr G G2 GT) :
    ∃ L, x.load = .ok L ∧ ∃ K,
      keygenWith x.configured.2 [codeLookup] (L.ops ++ hostOps (q := 5) m 0) (2 ^ kk) (omega kk) delta = .ok K ∧
      (∀ (τ : Fr) (A : Oracle.Log (KzgScript Fr × Stage) (Draw Fr) → KzgScript Fr × Stage) (Q : ℕ),
        Nat.card {t : Fin Q → Draws Fr // (∃ e ∈ Oracle.run (KzgScript.question τ E.g (2 ^ kk)) A (Oracle.tape t) Q,
          e.1.1.Short (2 ^ kk) ∧ e.1.2 = .u ∧ e.1.1.Accepts K E τ (Draws.tuple e.2) ∧
          ∃ bs, IsStrings bs ∧ (stringRows legacy k bs).length = m ∧ StringCells (K.grid e.1.1.messages.advice) legacy k bs ∧
          ∃ b ∈ bs, bytesHash short' legacy k b.1 ≠ .ok b.2 ∧ ¬ TableCollision x (K.grid e.1.1.messages.advice) short' b.2) ∧
          ¬ K.Breaks τ (Oracle.run (KzgScript.question τ E.g (2 ^ kk)) A (Oracle.tape t) Q)} * Base.Bn256.r ≤
        Q * (59 * 2 ^ kk + 1735) * Base.Bn256.r ^ (8 * Q)) ∧
      ∀ bs, IsStrings bs → (stringRows legacy k bs).length = m → (∀ b ∈ bs, bytesHash short' legacy k b.1 = .ok b.2) →
        ∃ P : KzgProver Fr, P.Short (2 ^ kk) ∧ StringCells (K.grid P.advice) legacy k bs ∧
          ∀ τ, Base.Bn256.r ^ 56 ≤ Nat.card {t : Fin 7 → Draws Fr //
            ∃ e ∈ (Oracle.run (KzgScript.question τ E.g (2 ^ kk)) P.ask (Oracle.tape t) 7).head?, e.1.1.Short (2 ^ kk) ∧
              e.1.2 = .u ∧ e.1.1.messages.advice = P.advice ∧ e.1.1.Accepts K E τ (Draws.tuple e.2)} +
            (19 * 2 ^ kk + 578) * Base.Bn256.r ^ 55 := by
  obtain ⟨L, hL, K, hK, hp, hc⟩ := C103_code hch short short' legacy mode (STEP := 2 * k) (by omega) hm hkk h1 h2 h3 hx E
  have el : x.legacy = legacy := by rw [hx]; rfl
  have hmsgs : ∀ bs, IsStrings bs → ∀ msg ∈ bs.map fun b : List ℕ × Fr => (b.1.length, byteRows k b.1, b.2),
      0 < msg.1 ∧ msg.1 < 2 ^ 64 ∧ msg.2.1.length = (msg.1 + 2 * k - 1) / (2 * k) := by
    intro bs hbs msg hmsg
    obtain ⟨b, hb, rfl⟩ := List.mem_map.mp hmsg
    obtain ⟨q1, q2⟩ := hbs b hb
    exact ⟨List.length_pos_iff.mpr q1.ne_nil, lt_trans q2 (by norm_num), length_byteRows hk _⟩
  obtain ⟨hn, hKω⟩ := keygen_n hK
  refine ⟨L, hL, K, hK, fun τ A Q => le_trans (Nat.mul_le_mul_right _ ?_) (hp τ A Q), fun bs hbs hlen hv => ?_⟩
  · rw [nat_card_eq_count, nat_card_eq_count]
    refine count_mono fun t ⟨⟨e, he, a1, a2, a3, bs, b1, b2, b3, b, hb, b4, b5⟩, hbr⟩ => ⟨⟨e, he, a1, a2, a3, _, hmsgs bs b1, ?_⟩, hbr⟩
    rw [stringRows_eq]
    refine ⟨b2, fun i hi j => ?_, _, List.mem_map.mpr ⟨b, hb, rfl⟩, ?_, ?_⟩
    · rw [← hKω]
      exact b3 i hi j
    · rw [bytesHash_eq short' legacy hk (b1 b hb).1 (b1 b hb).2] at b4
      exact b4
    · rw [TableCollision, el] at b5
      exact b5
  · have hc := hc _ (hmsgs bs hbs)
    rw [stringRows_eq] at hc
    obtain ⟨P, p1, p2, p3⟩ := hc hlen fun msg hmsg => by
      obtain ⟨b, hb, rfl⟩ := List.mem_map.mp hmsg
      rw [← bytesHash_eq short' legacy hk (hbs b hb).1 (hbs b hb).2]
      exact hv b hb
    refine ⟨P, p1, fun i hi j => ?_, p3⟩
    rw [← p2 i hi j, ← hKω]
    rfl

end

/-! ### Examples -/

/-- 70 bytes in words of 31 in a circuit of `2^8` rows: shown by an honest prover, and only with this digest unless there is a collision. -/
example {kind : ChipKind} {ch : Chip Fr 3} (hch : bnChip kind = .ok ch) (short short' legacy : Bool) (mode : LoadMode)
    {x : Run Fr} (hx : x = codeRun ch short legacy mode (2 * 31) .empty 4) {b : List ℕ} (hb : b = (List.range 70).map (· + 1)) :
    ∃ D, bytesHash short' legacy 31 b = .ok D ∧ (stringRows legacy 31 [(b, D)]).length = 2 ∧ ∃ L, x.load = .ok L ∧ ∃ K,
      keygenWith x.configured.2 [codeLookup] (L.ops ++ hostOps (q := 5) 2 0) (2 ^ 8) (omega 8) delta = .ok K ∧
      (K.Shows fun g => StringCells g legacy 31 [(b, D)]) ∧
      K.Proves fun g => ∀ D', StringCells g legacy 31 [(b, D')] → D' = D ∨ TableCollision x g short' D' := by
  have hB : IsBytes b := by subst hb; exact ⟨by simp; omega, by simp⟩
  have hlen : b.length = 70 := by subst hb; simp
  obtain ⟨D, hD⟩ : ∃ D, bytesHash short' legacy 31 b = .ok D := by
    refine ⟨_, (C04_C05_bn254 short' legacy).2 _ _ ?_ ?_⟩
    · refine List.ne_nil_of_length_pos ?_
      rw [length_byteWords, hlen]
      norm_num
    · rw [length_byteWords, hlen]
      norm_num
  have hs : ∀ D, IsStrings [(b, D)] := by
    intro D c hc
    rw [List.mem_singleton.mp hc]
    exact ⟨hB, by rw [hlen]; norm_num⟩
  have hr : ∀ D, (stringRows legacy 31 [(b, D)]).length = 2 := by
    intro D
    rw [stringRows_length]
    simp [length_byteRows, hlen]
  obtain ⟨L, hL, K, hK, -, hp, hc⟩ := C115_proofs hch short short' legacy mode (k := 31) (calcs := 4) (m := 2) (kk := 8)
    (by norm_num) (by norm_num) (by norm_num) (by norm_num) (by norm_num) (by cases kind <;> simp [ChipKind.rows]) hx
  refine ⟨D, hD, hr D, L, hL, K, hK, hc _ (hs D) (hr D) (by simpa using hD), hp.mono fun g hg D' hcells => ?_⟩
  rcases hg _ (hs D') (hr D') hcells (b, D') (by simp) with e | e
  · rw [hD] at e
    exact .inl (Except.ok.inj e).symm
  · exact .inr e

/-- Columns for `[1]` and `[1, 0]` are different: no cells are rows of both. -/
example (g : Grid Fr) (D D' : Fr) (h : StringCells g false 31 [([1], D)]) : ¬ StringCells g false 31 [([1, 0], D')] := by
  intro h'
  have hB : ∀ b : List ℕ, (b = [1] ∨ b = [1, 0]) → ∀ D : Fr, IsStrings [(b, D)] := by
    intro b hb D c hc
    rw [List.mem_singleton.mp hc]
    rcases hb with rfl | rfl
    · exact ⟨⟨by simp, by simp⟩, by simp⟩
    · exact ⟨⟨by simp, by simp⟩, by simp⟩
  have := C115_columns false (k := 31) (by norm_num) (by norm_num) (hB [1] (.inl rfl) D) (hB [1, 0] (.inr rfl) D')
    (by simp [stringRows_length, length_byteRows]) h h'
  simp at this

/-- The byte 255 on `2^8` rows, with commitments in the field itself and the secret 5. -/
example {kind : ChipKind} {ch : Chip Fr 3} (hch : bnChip kind = .ok ch) (short short' legacy : Bool) (mode : LoadMode)
    {x : Run Fr} (hx : x = codeRun ch short legacy mode (2 * 31) .empty 2) :
    ∃ D, bytesHash short' legacy 31 [255] = .ok D ∧ ∃ (K : Key Fr) (P : KzgProver Fr), P.Short (2 ^ 8) ∧
      StringCells (K.grid P.advice) legacy 31 [([255], D)] ∧ Base.Bn256.r ^ 56 ≤ Nat.card {t : Fin 7 → Draws Fr //
        ∃ e ∈ (Oracle.run (KzgScript.question 5 (mulPairing Fr).g (2 ^ 8)) P.ask (Oracle.tape t) 7).head?, e.1.1.Short (2 ^ 8) ∧
          e.1.2 = .u ∧ e.1.1.messages.advice = P.advice ∧ e.1.1.Accepts K (mulPairing Fr) 5 (Draws.tuple e.2)} +
        (19 * 2 ^ 8 + 578) * Base.Bn256.r ^ 55 := by
  obtain ⟨D, hD⟩ : ∃ D, bytesHash short' legacy 31 [255] = .ok D := by
    refine ⟨_, (C04_C05_bn254 short' legacy).2 _ _ ?_ ?_⟩
    · refine List.ne_nil_of_length_pos ?_
      rw [length_byteWords]
      simp
    · rw [length_byteWords]
      simp
  obtain ⟨L, hL, K, hK, -, h⟩ := C115_commitments hch short short' legacy mode (k := 31) (calcs := 2) (m := 1) (kk := 8)
    (by norm_num) (by norm_num) (by norm_num) (by norm_num) (by norm_num) (by cases kind <;> simp [ChipKind.rows]) hx (mulPairing Fr)
  obtain ⟨P, p1, p2, p3⟩ := h [([255], D)] (by
    intro c hc
    rw [List.mem_singleton.mp hc]
    exact ⟨⟨by simp, by simp⟩, by simp⟩) (by simp [stringRows_length, length_byteRows]) (by simpa using hD)
  exact ⟨D, hD, K, P, p1, p2, p3 5⟩

end Props
