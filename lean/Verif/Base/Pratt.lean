import Mathlib.NumberTheory.LucasPrimality
import Mathlib.Data.ZMod.Basic
import Mathlib.Algebra.BigOperators.Group.List.Basic

/-! Pratt primality certificates checked by kernel evaluation (a proof tool, not a model of the repo). -/

namespace Pratt

/-- `acc * a ^ e mod m` by repeated squaring; `fuel` bounds the bit length of `e`. -/
def powModAux (m : ℕ) : ℕ → ℕ → ℕ → ℕ → ℕ
  | 0, _, _, acc => acc
  | fuel + 1, a, e, acc =>
    if e = 0 then acc
    else powModAux m fuel (a * a % m) (e / 2) (if e % 2 = 1 then acc * a % m else acc)

def powMod (a e m : ℕ) : ℕ := powModAux m 300 (a % m) e 1

theorem powModAux_eq (m fuel : ℕ) : ∀ a e acc : ℕ, e < 2 ^ fuel →
    ((powModAux m fuel a e acc : ℕ) : ZMod m) = (acc : ZMod m) * (a : ZMod m) ^ e := by
  induction fuel with
  | zero => intro a e acc h; have : e = 0 := by omega
            subst this; simp [powModAux]
  | succ fuel ih =>
    intro a e acc h
    simp only [powModAux]
    split
    · rename_i h0; simp [h0]
    · rw [ih _ _ _ (by omega)]
      have he : e = 2 * (e / 2) + e % 2 := (Nat.div_add_mod e 2).symm
      have hsq : (((a * a % m : ℕ)) : ZMod m) = (a : ZMod m) ^ 2 := by
        rw [ZMod.natCast_mod]; push_cast; ring
      rw [hsq, ← pow_mul]
      split
      · rename_i h1
        rw [ZMod.natCast_mod]
        conv_rhs => rw [he, h1, pow_add]
        push_cast; ring
      · rename_i h1
        have : e % 2 = 0 := by omega
        conv_rhs => rw [he, this]
        simp

theorem powMod_eq (a e m : ℕ) (h : e < 2 ^ 300) :
    ((powMod a e m : ℕ) : ZMod m) = (a : ZMod m) ^ e := by
  rw [powMod, powModAux_eq m 300 _ e 1 h, ZMod.natCast_mod]; simp

/-- One certificate step: `p - 1 = ∏ q^k` and `g` has order `p - 1`. -/
def check (p g : ℕ) (fs : List (ℕ × ℕ)) : Bool :=
  decide (1 < p) && decide (p < 2 ^ 300) && ((fs.map fun f => f.1 ^ f.2).prod == p - 1) &&
    (powMod g (p - 1) p == 1) &&
    fs.all fun f => powMod g ((p - 1) / f.1) p != 1 % p && decide (powMod g ((p - 1) / f.1) p < p)

theorem prime_of_check (p g : ℕ) (fs : List (ℕ × ℕ)) (h : check p g fs = true)
    (hq : ∀ f ∈ fs, f.1.Prime) : p.Prime := by
  simp only [check, Bool.and_eq_true, decide_eq_true_eq, beq_iff_eq, List.all_eq_true, bne_iff_ne,
    ne_eq] at h
  obtain ⟨⟨⟨⟨h1, h300⟩, hprod⟩, hg⟩, hall⟩ := h
  have : NeZero p := ⟨by omega⟩
  apply lucas_primality p (g : ZMod p)
  · rw [← powMod_eq g (p - 1) p (by omega), hg]; simp
  · intro q hqp hqd
    have : ∃ f ∈ fs, f.1 = q := by
      rw [← hprod] at hqd
      obtain ⟨x, hx, hd⟩ := (Prime.dvd_prod_iff hqp.prime).mp hqd
      obtain ⟨f, hf, rfl⟩ := List.mem_map.mp hx
      exact ⟨f, hf, ((Nat.prime_dvd_prime_iff_eq hqp (hq f hf)).mp (hqp.dvd_of_dvd_pow hd)).symm⟩
    obtain ⟨f, hf, rfl⟩ := this
    obtain ⟨hne, hlt⟩ := hall f hf
    have hle : (p - 1) / f.1 < 2 ^ 300 := lt_of_le_of_lt (Nat.div_le_self _ _) (by omega)
    rw [← powMod_eq g _ p hle]
    intro hc
    apply hne
    have := (ZMod.natCast_eq_natCast_iff _ 1 p).mp (by simpa using hc)
    rw [Nat.ModEq, Nat.mod_eq_of_lt hlt] at this
    exact this

end Pratt
