import Verif.Props.ArgumentGadget
import Verif.Props.ConstantCollision

/-!
# Merkle paths with the hash gadget: C116

Each node is the `ConstantLength<2>` hash of the value below and its sibling, laid out with the gadget of
`/repo/poseidon-circuit/src/poseidon.rs:204-283`. The sides are fixed for the circuit. (The tree belongs to the users of the gadget.)
-/

set_option linter.unusedVariables false
set_option linter.unusedSectionVars false

namespace Props
open Halo2 Circuit Blocks TestCircuit

/-! ### Specification -/

/-- The words of a node, from the value below and its sibling: `true` if the value is on the right. -/
def nodeWords {A : Type} (right : Bool) (v s : A) : List A := if right then [s, v] else [v, s]

/-- The root of a path from the value `v`: sides and siblings, from below. -/
def merkleRoot {F : Type} (hash : List F → Except Panic F) : F → List (Bool × F) → Except Panic F
  | v, [] => .ok v
  | v, (right, s) :: p =>
    match hash (nodeWords right v s) with
    | .ok u => merkleRoot hash u p
    | .error e => .error e

/-- The nodes on the way. -/
def merkleNodes {F : Type} (hash : List F → Except Panic F) : F → List (Bool × F) → List (List F)
  | _, [] => []
  | v, (right, s) :: p => nodeWords right v s ::
    match hash (nodeWords right v s) with
    | .ok u => merkleNodes hash u p
    | .error _ => []

/-- A circuit for a path: one call of the gadget for each sibling, on the cell returned last. -/
def pathProg {F : Type} (leaf : ACell F) (sibs : List (Bool × ACell F)) : List (List (ACell F) → List (ACell F)) :=
  sibs.map fun s outs => nodeWords s.1 (outs.getLastD leaf) s.2

/-- The path in a grid. -/
def pathIn {F : Type} [Field F] (g : Grid F) (sibs : List (Bool × ACell F)) : List (Bool × F) := sibs.map fun s => (s.1, g.cell s.2.cell)

/-- The root of the tree with `2 ^ d` leaves; a position is given by its sides from the top. -/
def treeRoot {F : Type} (hash : List F → Except Panic F) : ℕ → (List Bool → F) → Except Panic F
  | 0, leaves => .ok (leaves [])
  | d + 1, leaves =>
    match treeRoot hash d (fun q => leaves (false :: q)), treeRoot hash d (fun q => leaves (true :: q)) with
    | .ok l, .ok r => hash [l, r]
    | .error e, _ => .error e
    | _, .error e => .error e

/-- The nodes of the tree: the words hashed. -/
def treeNodes {F : Type} (hash : List F → Except Panic F) : ℕ → (List Bool → F) → List (List F)
  | 0, _ => []
  | d + 1, leaves => treeNodes hash d (fun q => leaves (false :: q)) ++ treeNodes hash d (fun q => leaves (true :: q)) ++
    match treeRoot hash d (fun q => leaves (false :: q)), treeRoot hash d (fun q => leaves (true :: q)) with
    | .ok l, .ok r => [[l, r]]
    | _, _ => []

/-! ### Lemmas -/

theorem nodeWords_map {A B : Type} (f : A → B) (right : Bool) (v s : A) : (nodeWords right v s).map f = nodeWords right (f v) (f s) := by
  cases right <;> rfl

theorem nodeWords_inj {A : Type} {right : Bool} {v v' s s' : A} (h : nodeWords right v s = nodeWords right v' s') : v = v' ∧ s = s' := by
  cases right
  · simpa [nodeWords] using h
  · simpa [nodeWords, and_comm] using h

theorem nodeWords_length {A : Type} (right : Bool) (v s : A) : (nodeWords right v s).length = 2 := by cases right <;> rfl

theorem pathProg_ne {F : Type} (leaf : ACell F) (sibs : List (Bool × ACell F)) : ∀ f ∈ pathProg leaf sibs, ∀ outs, f outs ≠ [] := by
  intro f hf outs
  obtain ⟨s, -, rfl⟩ := List.mem_map.mp hf
  refine List.ne_nil_of_length_pos ?_
  rw [nodeWords_length]
  norm_num

/-- Calls one after the other give the root. -/
theorem root_of_calls {F : Type} (hash : List F → Except Panic F) (val : ACell F → F) (leaf : ACell F) (sibs : List (Bool × ACell F))
    (outs : List (ACell F)) (hlen : outs.length = sibs.length)
    (h : ∀ (i : ℕ) f x, (pathProg leaf sibs)[i]? = some f → outs[i]? = some x → hash ((f (outs.take i)).map val) = .ok (val x)) :
    merkleRoot hash (val leaf) (sibs.map fun s => (s.1, val s.2)) = .ok (val (outs.getLastD leaf)) := by
  induction sibs generalizing leaf outs with
  | nil =>
    obtain rfl := List.length_eq_zero_iff.mp hlen
    rfl
  | cons s sibs ih =>
    cases outs with
    | nil => simp at hlen
    | cons x outs =>
      have h0 := h 0 _ x rfl rfl
      rw [List.take_zero, nodeWords_map] at h0
      change hash (nodeWords s.1 (val leaf) (val s.2)) = .ok (val x) at h0
      rw [List.map_cons, merkleRoot, h0, List.getLastD_cons]
      refine ih x outs (by simpa using hlen) fun i f y hf hy => ?_
      rw [pathProg, List.getElem?_map, Option.map_eq_some_iff] at hf
      obtain ⟨a, ha, rfl⟩ := hf
      have := h (i + 1) (fun outs => nodeWords a.1 (outs.getLastD leaf) a.2) y (by
        rw [pathProg, List.map_cons, List.getElem?_cons_succ, List.getElem?_map, ha]
        rfl) (by rw [List.getElem?_cons_succ]; exact hy)
      rw [List.take_succ_cons, List.getLastD_cons] at this
      exact this

theorem merkle_bind {F : Type} (hash : List F → Except Panic F) {v v' D : F} {p p' : List (Bool × F)}
    (hs : p.map Prod.fst = p'.map Prod.fst) (h : merkleRoot hash v p = .ok D) (h' : merkleRoot hash v' p' = .ok D) :
    (v = v' ∧ p = p') ∨ ∃ m ∈ merkleNodes hash v p, ∃ m' ∈ merkleNodes hash v' p', m.length = 2 ∧ m'.length = 2 ∧ m ≠ m' ∧
      hash m = hash m' := by
  induction p generalizing v v' p' with
  | nil =>
    obtain rfl : p' = [] := by simpa using hs.symm
    rw [merkleRoot] at h h'
    exact .inl ⟨(Except.ok.inj h).trans (Except.ok.inj h').symm, rfl⟩
  | cons a p ih =>
    cases p' with
    | nil => simp at hs
    | cons a' p' =>
      obtain ⟨b, s⟩ := a
      obtain ⟨b', s'⟩ := a'
      rw [List.map_cons, List.map_cons, List.cons.injEq] at hs
      obtain ⟨rfl, hs⟩ := hs
      rw [merkleRoot] at h h'
      cases e : hash (nodeWords b v s) with
      | error _ => rw [e] at h; cases h
      | ok u =>
        cases e' : hash (nodeWords b v' s') with
        | error _ => rw [e'] at h'; cases h'
        | ok u' =>
          rw [e] at h
          rw [e'] at h'
          rcases ih hs h h' with ⟨rfl, rfl⟩ | ⟨m, hm, m', hm', q⟩
          · by_cases hw : nodeWords b v s = nodeWords b v' s'
            · obtain ⟨rfl, rfl⟩ := nodeWords_inj hw
              exact .inl ⟨rfl, rfl⟩
            · exact .inr ⟨_, List.mem_cons_self, _, List.mem_cons_self, nodeWords_length _ _ _, nodeWords_length _ _ _, hw,
                e.trans e'.symm⟩
          · refine .inr ⟨m, ?_, m', ?_, q⟩
            · rw [merkleNodes, e]
              exact List.mem_cons_of_mem _ hm
            · rw [merkleNodes, e']
              exact List.mem_cons_of_mem _ hm'

theorem merkleRoot_append {F : Type} (hash : List F → Except Panic F) {v u : F} {p : List (Bool × F)} (b : Bool) (s : F)
    (h : merkleRoot hash v p = .ok u) : merkleRoot hash v (p ++ [(b, s)]) = hash (nodeWords b u s) ∧
      merkleNodes hash v (p ++ [(b, s)]) = merkleNodes hash v p ++ [nodeWords b u s] := by
  induction p generalizing v with
  | nil =>
    obtain rfl := Except.ok.inj h
    simp only [List.nil_append, merkleRoot, merkleNodes]
    cases hash (nodeWords b v s) <;> simp
  | cons a p ih =>
    obtain ⟨c, w⟩ := a
    rw [merkleRoot] at h
    rw [List.cons_append, merkleRoot, merkleNodes, merkleNodes]
    cases e : hash (nodeWords c v w) with
    | error _ => rw [e] at h; cases h
    | ok x =>
      rw [e] at h
      obtain ⟨h1, h2⟩ := ih h
      exact ⟨h1, by simp only [h2, List.cons_append]⟩

/-- Every position has a path to the root, through nodes of the tree. -/
theorem tree_path {F : Type} (hash : List F → Except Panic F) (q : List Bool) (leaves : List Bool → F) {D : F}
    (h : treeRoot hash q.length leaves = .ok D) : ∃ p : List (Bool × F), p.map Prod.fst = q.reverse ∧
      merkleRoot hash (leaves q) p = .ok D ∧ ∀ m ∈ merkleNodes hash (leaves q) p, m ∈ treeNodes hash q.length leaves := by
  induction q generalizing leaves D with
  | nil => exact ⟨[], rfl, h, fun m hm => by simp [merkleNodes] at hm⟩
  | cons b q ih =>
    rw [List.length_cons, treeRoot] at h
    rw [List.length_cons, treeNodes]
    cases el : treeRoot hash q.length (fun q => leaves (false :: q)) with
    | error _ => rw [el] at h; cases h
    | ok l =>
      cases er : treeRoot hash q.length (fun q => leaves (true :: q)) with
      | error _ => rw [el, er] at h; cases h
      | ok r =>
        rw [el, er] at h
        replace h : hash [l, r] = .ok D := h
        cases b
        · obtain ⟨p, h1, h2, h3⟩ := ih _ el
          obtain ⟨h4, h5⟩ := merkleRoot_append hash false r h2
          refine ⟨p ++ [(false, r)], by simp [h1], h4.trans h, fun m hm => ?_⟩
          rw [h5, List.mem_append] at hm
          rcases hm with hm | hm
          · exact List.mem_append_left _ (List.mem_append_left _ (h3 m hm))
          · exact List.mem_append_right _ hm
        · obtain ⟨p, h1, h2, h3⟩ := ih _ er
          obtain ⟨h4, h5⟩ := merkleRoot_append hash true l h2
          refine ⟨p ++ [(true, l)], by simp [h1], h4.trans h, fun m hm => ?_⟩
          rw [h5, List.mem_append] at hm
          rcases hm with hm | hm
          · exact List.mem_append_left _ (List.mem_append_right _ (h3 m hm))
          · exact List.mem_append_right _ hm

/-! ### Theorems -/

variable {F : Type} [Field F] {t : ℕ}

/-- **C116**, binding: two paths with the same sides to one root are equal, or a node of the one and a node of the other show a weakness
of the permutation (C113). -/
theorem C116_bind (ht : 0 < t) (fr pr : ℕ) (mds : Base.Mds F (t + 1)) (rc : List (Base.State F (t + 1))) {v v' D : F}
    {p p' : List (Bool × F)} (hs : p.map Prod.fst = p'.map Prod.fst)
    (h : merkleRoot (nativeConstHash fr pr mds rc) v p = .ok D) (h' : merkleRoot (nativeConstHash fr pr mds rc) v' p' = .ok D) :
    (v = v' ∧ p = p') ∨ ∃ m ∈ merkleNodes (nativeConstHash fr pr mds rc) v p, ∃ m' ∈ merkleNodes (nativeConstHash fr pr mds rc) v' p',
      m ≠ m' ∧ WeakAt 0 t (Base.permute ⟨fr, pr, Base.sboxPow⟩ mds rc) (lengthState (t + 1) t F 2) (blocks (t + 1) 0 t m)
        (blocks (t + 1) 0 t m') := by
  rcases merkle_bind _ hs h h' with e | ⟨m, hm, m', hm', l, l', hne, e⟩
  · exact .inl e
  · right
    have := (native_same ht fr pr mds rc (l.trans l'.symm) (List.ne_nil_of_length_pos (by omega)) e).resolve_left hne
    rw [l] at this
    exact ⟨m, hm, m', hm', hne, this⟩

/-- **C116.** A circuit that lays out a path of any length with the gadget, on any leaf and sibling cells: in every accepted grid the last
cell is the root, computed natively, of the leaf and siblings in the grid; and the honest grid, if leaf and siblings hold their values,
satisfies gates and copy constraints and has the native root of the values there. -/
theorem C116_path (fr pr : ℕ) (mds mi : Base.Mds F (t + 1)) (rc : List (Base.State F (t + 1)))
    (hrc : fr + pr ≤ rc.length) (hinv : Matrix.of mds * Matrix.of mi = 1)
    (cols : Pow5.Cols t) (hd : cols.Distinct) (cs cs' : CS F) (c : Pow5.Config F t)
    (hcfg : Pow5.configureChecked (gadgetParams fr pr mds mi rc) cols cs = .ok (c, cs'))
    (L : Layouter F) (kc : ℕ) (hconst : L.constCol = some kc) (hL : L.Good (Gadget.OwnCols cols kc))
    (leaf : ACell F) (sibs : List (Bool × ACell F)) :
    ∃ outs L' log, hashAll (gadgetParams fr pr mds mi rc) c L [] (pathProg leaf sibs) = .ok (outs, L') ∧ L'.ops = L.ops ++ log ∧
      outs.length = sibs.length ∧
      merkleRoot (nativeConstHash fr pr mds rc) leaf.value (sibs.map fun s => (s.1, s.2.value)) = .ok (outs.getLastD leaf).value ∧
      ∀ (post : List (Op F)) (g : Grid F), Later cols kc L' post →
        (InstanceOf g (L'.ops ++ post) {k | RCol.fixed k ∈ Gadget.OwnCols cols kc} {k | cs.numSelectors ≤ k ∧ k < cs'.numSelectors} →
          Fits log g.n → (∀ p ∈ cs'.gates, p.Holds g) →
          merkleRoot (nativeConstHash fr pr mds rc) (g.cell leaf.cell) (pathIn g sibs) = .ok (g.cell (outs.getLastD leaf).cell)) ∧
        ((∀ o ∈ L.ops ++ post, ∀ k r, o = .selector k r → ¬ (cs.numSelectors ≤ k ∧ k < cs'.numSelectors)) →
          HonestFor g (L'.ops ++ post) {k | RCol.fixed k ∈ Gadget.OwnCols cols kc} {k | cs.numSelectors ≤ k ∧ k < cs'.numSelectors}
            {k | cols.IsAdvice k} → Fits log g.usable →
          g.cell leaf.cell = leaf.value → (∀ s ∈ sibs, g.cell s.2.cell = s.2.value) →
          (∀ p ∈ cs'.gates, p ∈ cs.gates ∨ p.Holds g) ∧ CopiesHold g log ∧
            g.cell (outs.getLastD leaf).cell = (outs.getLastD leaf).value) := by
  obtain ⟨outs, L', log, e1, e2, e3, -, e4, key⟩ := C45_gadget fr pr mds mi rc hrc hinv cols hd cs cs' c hcfg L kc hconst hL
    (pathProg leaf sibs) (pathProg_ne leaf sibs)
  have hlen : outs.length = sibs.length := by rw [e3, pathProg, List.length_map]
  refine ⟨outs, L', log, e1, e2, hlen, root_of_calls _ ACell.value leaf sibs outs hlen e4, fun post g hpost => ⟨fun h1 h2 h3 => ?_,
    fun h1 h2 h3 h4 h5 => ?_⟩⟩
  · exact root_of_calls _ (fun a => g.cell a.cell) leaf sibs outs hlen ((key post g hpost).1 h1 h2 h3)
  · have hmem : ∀ l : List (ACell F), l.getLastD leaf = leaf ∨ l.getLastD leaf ∈ l := by
      intro l
      induction l using List.reverseRecOn with
      | nil => exact .inl rfl
      | append_singleton l a _ => right; simp
    obtain ⟨q1, q2⟩ := (key post g hpost).2 h1 h2 h3
    obtain ⟨q2, q3⟩ := q2 (by
      intro i f hf a ha hn
      rw [pathProg, List.getElem?_map, Option.map_eq_some_iff] at hf
      obtain ⟨s, hs, rfl⟩ := hf
      have ha' : a = (outs.take i).getLastD leaf ∨ a = s.2 := by
        unfold nodeWords at ha
        split_ifs at ha <;> simp only [List.mem_cons, List.not_mem_nil, or_false] at ha <;> tauto
      rcases ha' with rfl | rfl
      · rcases hmem (outs.take i) with e | e
        · rw [e]; exact h4
        · exact absurd e hn
      · exact h5 s (List.mem_of_getElem? hs))
    refine ⟨q1, q2, ?_⟩
    rcases hmem outs with e | e
    · rw [e]; exact h4
    · exact q3 _ e

/-- **C116**, proofs: if the circuit, with anything laid out after the path, has a key, then proofs for it show that the last cell is the
native root of the leaf and the siblings. -/
theorem C116_proofs [Fintype F] (fr pr : ℕ) (mds mi : Base.Mds F (t + 1)) (rc : List (Base.State F (t + 1)))
    (hrc : fr + pr ≤ rc.length) (hinv : Matrix.of mds * Matrix.of mi = 1)
    (cols : Pow5.Cols t) (hd : cols.Distinct) (cs cs' : CS F) (c : Pow5.Config F t)
    (hcfg : Pow5.configureChecked (gadgetParams fr pr mds mi rc) cols cs = .ok (c, cs'))
    (L : Layouter F) (kc : ℕ) (hconst : L.constCol = some kc) (hL : L.Good (Gadget.OwnCols cols kc))
    (leaf : ACell F) (sibs : List (Bool × ACell F)) {outs : List (ACell F)} {L' : Layouter F}
    (hrun : hashAll (gadgetParams fr pr mds mi rc) c L [] (pathProg leaf sibs) = .ok (outs, L')) {post : List (Op F)}
    (hlater : Later cols kc L' post) (hfill : ∀ k r v, Op.fill k r v ∈ post → RCol.fixed k ∉ Gadget.OwnCols cols kc)
    {whole : CS F} {ws : List (Wide F)} (hgates : ∀ p ∈ cs'.gates, p ∈ whole.gates) {n : ℕ} {ω δ : F} {K : Key F}
    (hK : keygenWith whole ws (L'.ops ++ post) n ω δ = .ok K) (hω : IsPrimitiveRoot ω n) (hδ : DistinctNames whole n ω δ) :
    K.Proves fun g =>
      merkleRoot (nativeConstHash fr pr mds rc) (g.cell leaf.cell) (pathIn g sibs) = .ok (g.cell (outs.getLastD leaf).cell) := by
  obtain ⟨outs', L'', log, e1, -, e3, -⟩ := C116_path fr pr mds mi rc hrc hinv cols hd cs cs' c hcfg L kc hconst hL leaf sibs
  rw [hrun] at e1
  cases e1
  exact (C99_gadget fr pr mds mi rc hrc hinv cols hd cs cs' c hcfg L kc hconst hL _ (pathProg_ne leaf sibs) hrun hlater hfill hgates hK hω
    hδ).mono fun g hg => root_of_calls _ (fun a => g.cell a.cell) leaf sibs outs e3 hg

/-- **C116**, two proofs: two provers, also for circuits with different keys and cells, that each convince the verifier for more than a
share `K.slack / |F|` of the challenges, with the same sides and the same root, have the same leaf and siblings, or show a weakness. -/
theorem C116_two [Fintype F] (ht : 0 < t) (fr pr : ℕ) (mds : Base.Mds F (t + 1)) (rc : List (Base.State F (t + 1))) {K K' : Key F}
    {leaf leaf' root root' : ACell F} {sibs sibs' : List (Bool × ACell F)}
    (h : K.Proves fun g => merkleRoot (nativeConstHash fr pr mds rc) (g.cell leaf.cell) (pathIn g sibs) = .ok (g.cell root.cell))
    (h' : K'.Proves fun g => merkleRoot (nativeConstHash fr pr mds rc) (g.cell leaf'.cell) (pathIn g sibs') = .ok (g.cell root'.cell))
    (hs : sibs.map Prod.fst = sibs'.map Prod.fst) {P P' : Prover F} (hP : P.Short K.n) (hP' : P'.Short K'.n)
    (hc : K.slack * Fintype.card F ^ 4 < Nat.card {c // P.Convinces K c})
    (hc' : K'.slack * Fintype.card F ^ 4 < Nat.card {c // P'.Convinces K' c}) {g g' : Grid F} (hg : g = K.grid P.advice)
    (hg' : g' = K'.grid P'.advice) (hroot : g.cell root.cell = g'.cell root'.cell) :
    (g.cell leaf.cell = g'.cell leaf'.cell ∧ pathIn g sibs = pathIn g' sibs') ∨
      ∃ m ∈ merkleNodes (nativeConstHash fr pr mds rc) (g.cell leaf.cell) (pathIn g sibs),
      ∃ m' ∈ merkleNodes (nativeConstHash fr pr mds rc) (g'.cell leaf'.cell) (pathIn g' sibs'),
        m ≠ m' ∧ WeakAt 0 t (Base.permute ⟨fr, pr, Base.sboxPow⟩ mds rc) (lengthState (t + 1) t F 2) (blocks (t + 1) 0 t m)
          (blocks (t + 1) 0 t m') := by
  subst hg hg'
  have q := (h.1 P hP).resolve_right (not_le.mpr hc)
  have q' := (h'.1 P' hP').resolve_right (not_le.mpr hc')
  simp only [hroot] at q
  refine C116_bind ht fr pr mds rc ?_ q q'
  unfold pathIn
  rw [List.map_map, List.map_map]
  exact hs

/-- **C116**, membership: a path to the root of a tree of its depth starts at the leaf that its sides say, or a node of the path and a
node of the tree show a weakness of the permutation. -/
theorem C116_member (ht : 0 < t) (fr pr : ℕ) (mds : Base.Mds F (t + 1)) (rc : List (Base.State F (t + 1))) (leaves : List Bool → F)
    (q : List Bool) {v D : F} {p : List (Bool × F)} (hs : p.map Prod.fst = q.reverse)
    (hT : treeRoot (nativeConstHash fr pr mds rc) q.length leaves = .ok D) (h : merkleRoot (nativeConstHash fr pr mds rc) v p = .ok D) :
    v = leaves q ∨ ∃ m ∈ merkleNodes (nativeConstHash fr pr mds rc) v p, ∃ m' ∈ treeNodes (nativeConstHash fr pr mds rc) q.length leaves,
      m ≠ m' ∧ WeakAt 0 t (Base.permute ⟨fr, pr, Base.sboxPow⟩ mds rc) (lengthState (t + 1) t F 2) (blocks (t + 1) 0 t m)
        (blocks (t + 1) 0 t m') := by
  obtain ⟨p', h1, h2, h3⟩ := tree_path _ q leaves hT
  rcases C116_bind ht fr pr mds rc (hs.trans h1.symm) h h2 with e | ⟨m, hm, m', hm', e⟩
  · exact .inl e.1
  · exact .inr ⟨m, hm, m', h3 m' hm', e⟩

/-- **C116**, membership in proofs: if proofs for a circuit show what `C116_proofs` says, they also show that, for every tree with the root in
the root cell, the leaf cell holds the leaf at the position of the path, or the permutation is weak. -/
theorem C116_member_proofs [Fintype F] (ht : 0 < t) (fr pr : ℕ) (mds : Base.Mds F (t + 1)) (rc : List (Base.State F (t + 1))) {K : Key F}
    {leaf root : ACell F} {sibs : List (Bool × ACell F)}
    (h : K.Proves fun g => merkleRoot (nativeConstHash fr pr mds rc) (g.cell leaf.cell) (pathIn g sibs) = .ok (g.cell root.cell)) :
    K.Proves fun g => ∀ leaves : List Bool → F,
      treeRoot (nativeConstHash fr pr mds rc) sibs.length leaves = .ok (g.cell root.cell) →
      g.cell leaf.cell = leaves (sibs.map Prod.fst).reverse ∨
        ∃ m ∈ merkleNodes (nativeConstHash fr pr mds rc) (g.cell leaf.cell) (pathIn g sibs),
        ∃ m' ∈ treeNodes (nativeConstHash fr pr mds rc) sibs.length leaves,
          m ≠ m' ∧ WeakAt 0 t (Base.permute ⟨fr, pr, Base.sboxPow⟩ mds rc) (lengthState (t + 1) t F 2) (blocks (t + 1) 0 t m)
            (blocks (t + 1) 0 t m') := by
  refine h.mono fun g hg leaves hT => ?_
  have hl : (sibs.map Prod.fst).reverse.length = sibs.length := by rw [List.length_reverse, List.length_map]
  have := C116_member ht fr pr mds rc leaves (sibs.map Prod.fst).reverse (p := pathIn g sibs) (by
    rw [List.reverse_reverse, pathIn, List.map_map]
    rfl) (by rw [hl]; exact hT) hg
  rw [hl] at this
  exact this

/-! ### Examples -/

theorem hashAll_one {S : Pow5.Params F t} {c : Pow5.Config F t} {L L' : Layouter F} {f : List (ACell F) → List (ACell F)} {x : ACell F}
    (h : Gadget.hashCells S c L (f []).get = .ok (x, L')) : hashAll S c L [] [f] = .ok ([x], L') := by
  simp only [hashAll, h, bind, Except.bind, List.nil_append]

/-- A path of two nodes in the circuit of the example of C45, with the leaf in `gxA` and `gxB` as both siblings. -/
example : ∃ c cs', Pow5.configureChecked (gadgetParams 2 3 gxMds gxInv gxRc) gxCols gxCs = .ok (c, cs') ∧
    ∃ outs L' log, hashAll (gadgetParams 2 3 gxMds gxInv gxRc) c gxL [] (pathProg gxA [(false, gxB), (true, gxB)]) = .ok (outs, L') ∧
    L'.ops = gxL.ops ++ log ∧ outs.length = 2 ∧
    merkleRoot (nativeConstHash 2 3 gxMds gxRc) 11 [(false, 12), (true, 12)] = .ok (outs.getLastD gxA).value ∧
    ∀ g : Grid ℚ, InstanceOf g L'.ops {k | RCol.fixed k ∈ Gadget.OwnCols gxCols 0} {k | gxCs.numSelectors ≤ k ∧ k < cs'.numSelectors} →
      Fits log g.n → (∀ p ∈ cs'.gates, p.Holds g) →
      ∃ u, nativeConstHash 2 3 gxMds gxRc [g.cell gxA.cell, g.cell gxB.cell] = .ok u ∧
        nativeConstHash 2 3 gxMds gxRc [g.cell gxB.cell, u] = .ok (g.cell (outs.getLastD gxA).cell) := by
  have hd : gxCols.Distinct := by
    constructor <;> simp [gxCols, Function.Injective, Fin.forall_fin_two]
  have hinv : Matrix.of gxMds * Matrix.of gxInv = 1 := by
    ext i j
    fin_cases i <;> fin_cases j <;> norm_num [gxMds, gxInv, Matrix.mul_apply, Fin.sum_univ_succ]
  obtain ⟨c, cs', hcfg⟩ : ∃ c cs',
      Pow5.configureChecked (gadgetParams 2 3 gxMds gxInv gxRc) gxCols gxCs = .ok (c, cs') := by
    unfold Pow5.configureChecked
    rw [if_pos (by simp [gadgetParams]), Pow5.configure_eq]
    exact ⟨_, _, rfl⟩
  have hG : gxL.Good (Gadget.OwnCols gxCols 0) := by
    constructor
    · intro o ho k hk r h
      simp only [gxL, List.mem_cons, List.not_mem_nil, or_false] at ho
      rcases ho with rfl | rfl <;> · simp only [Op.Hits] at h; simp [gxL, h.2]
    · intro o ho o' ho' k hk r h h'
      simp only [gxL, List.mem_cons, List.not_mem_nil, or_false] at ho ho'
      rcases ho with rfl | rfl <;> rcases ho' with rfl | rfl <;>
        simp_all [Op.Hits, Op.payload]
  obtain ⟨outs, L', log, e1, e2, e3, e4, h⟩ := C116_path 2 3 gxMds gxInv gxRc (by simp [gxRc]) hinv gxCols hd gxCs cs' c hcfg gxL 0 rfl hG
    gxA [(false, gxB), (true, gxB)]
  refine ⟨c, cs', hcfg, outs, L', log, e1, e2, e3, e4, fun g hg hf hgates => ?_⟩
  have := (h [] g (by intro o ho; simp at ho)).1 (by rw [List.append_nil]; exact hg) hf hgates
  simp only [pathIn, List.map_cons, List.map_nil, merkleRoot, nodeWords] at this
  cases e : nativeConstHash 2 3 gxMds gxRc [g.cell gxA.cell, g.cell gxB.cell] with
  | error _ => simp [e] at this
  | ok u =>
    simp only [e, Bool.false_eq_true, if_false, if_true] at this
    refine ⟨u, rfl, ?_⟩
    cases e' : nativeConstHash 2 3 gxMds gxRc [g.cell gxB.cell, u] with
    | error _ => simp [e'] at this
    | ok w => simpa [e'] using this

/-- Two paths to one root: without rounds the hash is the first word, and `C116_bind` finds the weakness of the identity. -/
example : ∃ m ∈ merkleNodes (nativeConstHash (t := 2) (F := ℚ) 0 0 0 []) 1 [(false, 2), (false, 5)],
    ∃ m' ∈ merkleNodes (nativeConstHash (t := 2) (F := ℚ) 0 0 0 []) 1 [(false, 3), (false, 5)], m ≠ m' ∧
      WeakAt 0 2 (Base.permute ⟨0, 0, Base.sboxPow⟩ 0 []) (lengthState 3 2 ℚ 2) (blocks 3 0 2 m) (blocks 3 0 2 m') := by
  have hh : ∀ a b : ℚ, nativeConstHash (t := 2) (F := ℚ) 0 0 0 [] [a, b] = .ok a := by
    intro a b
    unfold nativeConstHash
    rw [C10_constant_length (by norm_num) (by norm_num), if_neg (by simp), List.ofFn_get]
    simp [Base.absorbBlocks_cons, Base.absorbBlocks_nil, Base.permute, Spec.addBlock]
  have hr : ∀ b c : ℚ, merkleRoot (nativeConstHash (t := 2) (F := ℚ) 0 0 0 []) 1 [(false, b), (false, c)] = .ok 1 := by
    intro b c
    simp [merkleRoot, nodeWords, hh]
  rcases C116_bind (by norm_num) 0 0 0 [] (v := 1) (v' := 1) (p := [(false, 2), (false, 5)]) (p' := [(false, 3), (false, 5)]) rfl (hr _ _)
    (hr _ _) with ⟨-, h⟩ | h
  · norm_num at h
  · exact h

/-- The tree with leaves 1, 2, 3, 4 and a false leaf 7 at the second position, with the same hash as above. -/
example : ∀ leaves : List Bool → ℚ, leaves [false, false] = 1 → leaves [false, true] = 2 → leaves [true, false] = 3 →
    leaves [true, true] = 4 →
    ∃ m ∈ merkleNodes (nativeConstHash (t := 2) (F := ℚ) 0 0 0 []) 7 [(true, 1), (false, 3)],
    ∃ m' ∈ treeNodes (nativeConstHash (t := 2) (F := ℚ) 0 0 0 []) 2 leaves, m ≠ m' ∧
      WeakAt 0 2 (Base.permute ⟨0, 0, Base.sboxPow⟩ 0 []) (lengthState 3 2 ℚ 2) (blocks 3 0 2 m) (blocks 3 0 2 m') := by
  intro leaves h1 h2 h3 h4
  have hh : ∀ a b : ℚ, nativeConstHash (t := 2) (F := ℚ) 0 0 0 [] [a, b] = .ok a := by
    intro a b
    unfold nativeConstHash
    rw [C10_constant_length (by norm_num) (by norm_num), if_neg (by simp), List.ofFn_get]
    simp [Base.absorbBlocks_cons, Base.absorbBlocks_nil, Base.permute, Spec.addBlock]
  rcases C116_member (t := 2) (by norm_num) 0 0 0 [] leaves [false, true] (v := 7) (D := 1) (p := [(true, 1), (false, 3)]) rfl
    (by simp [treeRoot, hh, h1]) (by simp [merkleRoot, nodeWords, hh]) with h | h
  · rw [h2] at h
    norm_num at h
  · exact h

/-- Over Pallas, a circuit with a key on 64 rows: a leaf, its sibling on the right, and another cell that must equal the root. Two provers
with the same root have the same leaf and sibling, or the permutation is weak. -/
example (a b y : Base.Pasta.Fp) : ∃ (c : Pow5.Config Base.Pasta.Fp 2) (cs' : CS Base.Pasta.Fp)
    (L : Layouter Base.Pasta.Fp) (out : ACell Base.Pasta.Fp) (L' : Layouter Base.Pasta.Fp)
    (post : List (Op Base.Pasta.Fp)) (K : Key Base.Pasta.Fp),
    hashAll (gadgetParams 8 56 Base.Pasta.mds Base.Pasta.mdsInv Base.Pasta.roundConstants) c L []
      (pathProg ⟨⟨.advice 0, 0⟩, a⟩ [(false, ⟨⟨.advice 1, 0⟩, b⟩)]) = .ok ([out], L') ∧
    keygen cs' (L'.ops ++ post) (2 ^ 6) (Pallas.omega 6) Pallas.delta = .ok K ∧
    (K.Proves fun g => merkleRoot (nativeConstHash 8 56 Base.Pasta.mds Base.Pasta.roundConstants) (g.advice 0 0) [(false, g.advice 1 0)] =
      .ok (g.cell out.cell)) ∧
    (K.Proves fun g => ∀ leaves : List Bool → Base.Pasta.Fp,
      treeRoot (nativeConstHash 8 56 Base.Pasta.mds Base.Pasta.roundConstants) 1 leaves = .ok (g.cell out.cell) →
      g.advice 0 0 = leaves [false] ∨ ∃ m m' : List Base.Pasta.Fp, m = [g.advice 0 0, g.advice 1 0] ∧
        m' ∈ treeNodes (nativeConstHash 8 56 Base.Pasta.mds Base.Pasta.roundConstants) 1 leaves ∧
        WeakAt 0 2 (Base.permute ⟨8, 56, Base.sboxPow⟩ Base.Pasta.mds Base.Pasta.roundConstants) (lengthState 3 2 Base.Pasta.Fp 2)
          (blocks 3 0 2 m) (blocks 3 0 2 m')) ∧
    ∀ P P' : Prover Base.Pasta.Fp, P.Short K.n → P'.Short K.n →
      K.slack * Fintype.card Base.Pasta.Fp ^ 4 < Nat.card {c // P.Convinces K c} →
      K.slack * Fintype.card Base.Pasta.Fp ^ 4 < Nat.card {c // P'.Convinces K c} →
      ∀ g g' : Grid Base.Pasta.Fp, g = K.grid P.advice → g' = K.grid P'.advice → g.cell out.cell = g'.cell out.cell →
        (g.advice 0 0 = g'.advice 0 0 ∧ g.advice 1 0 = g'.advice 1 0) ∨
          WeakAt 0 2 (Base.permute ⟨8, 56, Base.sboxPow⟩ Base.Pasta.mds Base.Pasta.roundConstants) (lengthState 3 2 Base.Pasta.Fp 2)
            (blocks 3 0 2 [g.advice 0 0, g.advice 1 0]) (blocks 3 0 2 [g'.advice 0 0, g'.advice 1 0]) := by
  obtain ⟨S, hS⟩ : ∃ S, S = gadgetParams 8 56 Base.Pasta.mds Base.Pasta.mdsInv Base.Pasta.roundConstants := ⟨_, rfl⟩
  have hinv : Matrix.of S.mReg * Matrix.of S.mInv = 1 := by rw [hS]; exact Base.Pasta.mds_mul_mdsInv
  obtain ⟨cs, L₂, e, h⟩ := C99_pasta false (by norm_num : 0 < 2) (by norm_num) ![a, b] y
  obtain ⟨K, hK⟩ := (h 6 (by norm_num)).1.mpr (by simp)
  obtain ⟨-, ht, ecs⟩ := hash_cs e
  rw [← hS] at e ecs ⊢
  have hcfg : Pow5.configureChecked S (testCols 2) ⟨4, 6, 0, [], [], [.fixed 3]⟩ =
      .ok (Pow5.config S (testCols 2) 0, cs) := by
    unfold Pow5.configureChecked
    rw [if_pos (by rw [hS]; simp [gadgetParams]), Pow5.configure_eq, ecs]
    rfl
  obtain ⟨L₀, e₀, c₀, o₀, k₀, -⟩ := load_ok S 0 (by norm_num : 0 < 2) (by norm_num) ![a, b] (some 3)
  obtain ⟨x, L', log, e₁, hx, -⟩ := hash_ok S (testCols 2) 0 3 hinv (testCols_distinct 2) ht L₀ c₀
    [⟨⟨.advice 0, 0⟩, a⟩, ⟨⟨.advice 1, 0⟩, b⟩] (by simp)
  obtain ⟨L₃, e₂, o₂⟩ := output_ok S 0 L' x y
  have e₁' := (hashCells_get (S := S) (c := Pow5.config S (testCols 2) 0) (L := L₀) rfl
    (List.get [⟨⟨.advice 0, 0⟩, a⟩, ⟨⟨.advice 1, 0⟩, b⟩]) (fun i : Fin 2 => ⟨⟨.advice i, 0⟩, ![a, b] i⟩) (by
      intro i
      fin_cases i <;> rfl)).symm.trans e₁
  have hL₂ : L₂ = L₃ := by
    have hcf : hashConfigure S = .ok (Pow5.config S (testCols 2) 0, cs, 3) := by
      simp only [hashConfigure, columns_eq, CS.enableEquality]
      rw [show Pow5.configureChecked S (testCols 2) ⟨2 + 2, 2 * (2 + 1), 0, [], [],
        [] ++ [Col.fixed ((testCols 2).rcB 0)]⟩ = .ok (Pow5.config S (testCols 2) 0, cs) from hcfg]
      rfl
    simp only [hashCircuit, hcf, hashSynthesize, e₀, e₁', e₂, bind, Except.bind, pure, Except.pure, Except.ok.injEq,
      Prod.mk.injEq] at e
    exact e.2.symm
  subst hL₂
  rw [o₂] at hK
  have hrun : hashAll S (Pow5.config S (testCols 2) 0) L₀ []
      (pathProg ⟨⟨.advice 0, 0⟩, a⟩ [(false, ⟨⟨.advice 1, 0⟩, b⟩)]) =
      .ok ([x], L') := by
    exact hashAll_one (f := fun outs => nodeWords false (outs.getLastD ⟨⟨.advice 0, 0⟩, a⟩) ⟨⟨.advice 1, 0⟩, b⟩) e₁
  have hlater : Later (testCols 2) 3 L' [.advice 0 (L'.colEnd (.advice 0)) y,
      .copy x.cell ⟨.advice 0, L'.colEnd (.advice 0)⟩] := by
    intro o ho k hk r hh
    simp only [List.mem_cons, List.not_mem_nil, or_false] at ho
    rcases ho with rfl | rfl
    · simp only [Op.Hits] at hh
      obtain ⟨rfl, rfl⟩ := hh
      exact le_rfl
    · exact hh.elim
  have hcols : (permCols cs.equality).length ≤ 7 := (permCols_length _).trans (by rw [ecs]; simp [Pow5.eqCols])
  have hδ : DistinctNames cs (2 ^ 6) (Pallas.omega 6) Pallas.delta :=
    Pallas.delta_names (by norm_num) (hcols.trans (by norm_num))
  rw [hS] at hcfg hrun
  have key := C116_proofs 8 56 Base.Pasta.mds Base.Pasta.mdsInv Base.Pasta.roundConstants
    (by rw [Base.Pasta.roundConstants_length]) Base.Pasta.mds_mul_mdsInv (testCols 2) (testCols_distinct 2) _ _ _ hcfg L₀
    3 c₀ (load_good (t := 2) (by norm_num) o₀ k₀) _ _ hrun hlater (by simp) (fun p hp => hp) hK
    (Pallas.omega_primitive (by norm_num)) hδ
  have hnode : ∀ (hash : List Base.Pasta.Fp → Except Panic Base.Pasta.Fp) v s m, m ∈ merkleNodes hash v [(false, s)] → m = [v, s] := by
    intro hash v s m hm
    rw [merkleNodes] at hm
    cases e : hash (nodeWords false v s) <;> rw [e] at hm <;> simpa [merkleNodes, nodeWords] using hm
  have key' := C116_member_proofs (by norm_num) 8 56 Base.Pasta.mds Base.Pasta.roundConstants key
  refine ⟨_, _, L₀, x, L', _, K, hS ▸ hrun, hK, key, key'.mono fun g hg leaves hT => (hg leaves hT).imp id fun h => ?_, fun P P' hP hP' hc hc' g g' hg hg' he => ?_⟩
  · obtain ⟨m, hm, m', hm', -, h⟩ := h
    exact ⟨m, m', hnode _ _ _ _ hm, hm', h⟩
  rcases C116_two (by norm_num) 8 56 Base.Pasta.mds Base.Pasta.roundConstants key key rfl hP hP' hc hc' hg hg' he with ⟨e, e'⟩ | h
  · left
    simp only [pathIn, List.map_cons, List.map_nil, List.cons.injEq, Prod.mk.injEq, true_and, and_true] at e'
    exact ⟨e, e'⟩
  · right
    obtain ⟨m, hm, m', hm', -, h⟩ := h
    rw [hnode _ _ _ _ hm, hnode _ _ _ _ hm'] at h
    exact h

end Props
