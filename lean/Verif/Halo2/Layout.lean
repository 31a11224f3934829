import Verif.Halo2.Lemmas

/-!
# Regions do not overlap: consistency of synthesis logs
-/

set_option linter.unusedVariables false
set_option linter.unusedSectionVars false
set_option linter.unusedSimpArgs false

namespace Halo2

variable {F : Type} [Field F]

/-- The operation writes to row `r` of column `c`. -/
def Op.Hits : Op F → RCol → ℕ → Prop
  | .advice c r _, k, i => k = .advice c ∧ i = r
  | .fixed c r _, k, i => k = .fixed c ∧ i = r
  | .selector c r, k, i => k = .selector c ∧ i = r
  | .fill c r _, k, i => k = .fixed c ∧ r ≤ i
  | _, _, _ => False

/-- The value written. -/
def Op.payload : Op F → F
  | .advice _ _ v => v
  | .fixed _ _ v => v
  | .fill _ _ v => v
  | _ => 0

theorem Op.FixedWrite.hits {o : Op F} {c r : ℕ} {v : F} (h : o.FixedWrite c r v) :
    o.Hits (.fixed c) r ∧ o.payload = v := by
  rcases h with rfl | ⟨r', h, rfl⟩
  · exact ⟨⟨rfl, rfl⟩, rfl⟩
  · exact ⟨⟨rfl, h⟩, rfl⟩

/-- Any two writes to the same cell of the columns in `K` write the same value. -/
def ConsistentOn (K : Set RCol) (ops : List (Op F)) : Prop :=
  ∀ o ∈ ops, ∀ o' ∈ ops, ∀ c ∈ K, ∀ r, o.Hits c r → o'.Hits c r → o.payload = o'.payload

theorem ConsistentOn.finalAdvice {K : Set RCol} {ops : List (Op F)} (h : ConsistentOn K ops)
    {c r : ℕ} {v : F} (hc : RCol.advice c ∈ K) (hm : Op.advice c r v ∈ ops) :
    finalAdvice ops c r = v :=
  finalAdvice_eq hm fun v' hm' => h _ hm' _ hm _ hc r ⟨rfl, rfl⟩ ⟨rfl, rfl⟩

theorem ConsistentOn.finalFixed {K : Set RCol} {ops : List (Op F)} (h : ConsistentOn K ops)
    {c r : ℕ} {v : F} (hc : RCol.fixed c ∈ K) (hm : Op.fixed c r v ∈ ops) :
    finalFixed ops c r = v :=
  finalFixed_eq ⟨_, hm, Or.inl rfl⟩ fun o ho v' hw => by
    have := h o ho _ hm _ hc r hw.hits.1 ⟨rfl, rfl⟩
    rw [hw.hits.2] at this
    exact this

theorem ConsistentOn.append {K : Set RCol} {a b : List (Op F)} (ha : ConsistentOn K a)
    (hb : ConsistentOn K b)
    (hd : ∀ o ∈ a, ∀ o' ∈ b, ∀ c ∈ K, ∀ r, o.Hits c r → ¬ o'.Hits c r) : ConsistentOn K (a ++ b) := by
  intro o ho o' ho' c hc r h h'
  rcases List.mem_append.mp ho with ho | ho <;> rcases List.mem_append.mp ho' with ho' | ho'
  · exact ha o ho o' ho' c hc r h h'
  · exact absurd h' (hd o ho o' ho' c hc r h)
  · exact absurd h (hd o' ho' o ho c hc r h')
  · exact hb o ho o' ho' c hc r h h'

/-- Everything written so far to the columns in `K` lies above the first free row, and is
consistent. -/
structure Layouter.Good (K : Set RCol) (L : Layouter F) : Prop where
  below : ∀ o ∈ L.ops, ∀ c ∈ K, ∀ r, o.Hits c r → r < L.colEnd c
  cons : ConsistentOn K L.ops

/-- A region body: its second pass is its first pass moved down, and it is consistent. -/
structure RegionOK {α : Type} (body : ℕ → W F α) : Prop where
  within : ∀ s, ∀ o ∈ (body s).ops, ∀ c r, o.Hits c r →
    s ≤ r ∧ r < s + Layouter.shapeRows (body 0).ops ∧ c ∈ Layouter.shapeCols (body 0).ops
  cons : ∀ s, ConsistentOn Set.univ (body s).ops

theorem ConsistentOn.mono {K K' : Set RCol} {ops : List (Op F)} (h : ConsistentOn K ops)
    (hk : K' ⊆ K) : ConsistentOn K' ops :=
  fun o ho o' ho' c hc r => h o ho o' ho' c (hk hc) r

namespace Layouter

/-- Adding a well-behaved region keeps the log consistent and only moves the free rows down. -/
theorem Good.region {α : Type} {K : Set RCol} {L : Layouter F} (hL : L.Good K) {body : ℕ → W F α}
    (hb : RegionOK body) (L' : Layouter F)
    (hcol : L'.colEnd = fun c => if c ∈ shapeCols (body 0).ops then
            L.startOf (body 0).ops + shapeRows (body 0).ops else L.colEnd c)
    (hops : L'.ops = L.ops ++ (body (L.startOf (body 0).ops)).ops) :
    L'.Good K ∧ ∀ c, L.colEnd c ≤ L'.colEnd c := by
  have mono : ∀ c, L.colEnd c ≤ L'.colEnd c := by
    intro c
    rw [hcol]
    dsimp only
    split_ifs with h
    · have := L.le_startOf h; omega
    · exact le_rfl
  refine ⟨⟨?_, ?_⟩, mono⟩
  · intro o ho c hc r hr
    rw [hops] at ho
    rcases List.mem_append.mp ho with ho | ho
    · exact lt_of_lt_of_le (hL.below o ho c hc r hr) (mono c)
    · obtain ⟨h1, h2, h3⟩ := hb.within _ o ho c r hr
      rw [hcol]
      dsimp only
      rw [if_pos h3]
      exact h2
  · rw [hops]
    refine hL.cons.append ((hb.cons _).mono (Set.subset_univ _)) ?_
    intro o ho o' ho' c hc r h h'
    have h1 := hL.below o ho c hc r h
    obtain ⟨h2, -, h3⟩ := hb.within _ o' ho' c r h'
    have := L.le_startOf h3
    omega

end Layouter

/-- What `HonestFor`/`InstanceOf` say about single operations, for a consistent log. -/
theorem obeys_fixed {g : Grid F} {ops : List (Op F)} {K : Set RCol} (hc : ConsistentOn K ops)
    {c r : ℕ} {v : F} (hk : RCol.fixed c ∈ K)
    (hfix : g.fixed c r = finalFixed ops c r) (hm : Op.fixed c r v ∈ ops) : g.fixed c r = v := by
  rw [hfix, hc.finalFixed hk hm]

end Halo2
