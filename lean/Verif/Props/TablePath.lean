import Verif.Props.TableLookup
import Verif.Props.ArgumentHost

/-!
# Paths of a tree looked up in the table: C108

The table is made for the MPT circuit (`spec/hash-table.md`), which looks up the nodes on a path of a binary tree, one by one, with
control 0. A path is a list of steps from a leaf to the root.
-/

set_option linter.unusedVariables false

namespace Props
open Halo2 Circuit Circuit.Table Base.Bn256

/-! ### Specification -/

/-- A node: the digest, two words and the domain. -/
structure PathNode where
  digest : Fr
  left : Fr
  right : Fr
  dom : Fr

/-- The code computes the digest. -/
def PathNode.Right (short : Bool) (n : PathNode) : Prop := hashWithDomainFr short ![n.left, n.right] n.dom = .ok n.digest

/-- The row that is looked up for a node. -/
def PathNode.row (n : PathNode) : Fin 6 → Fr := ![n.digest, n.left, n.right, 0, n.dom, 1]

/-- A step up: on which side the value below is, the value on the other side, the domain, and the claimed digest. -/
structure PathStep where
  onRight : Bool
  sibling : Fr
  dom : Fr
  up : Fr

/-- The node of a step up from the value `v`. -/
def PathStep.node (s : PathStep) (v : Fr) : PathNode :=
  if s.onRight then ⟨s.up, s.sibling, v, s.dom⟩ else ⟨s.up, v, s.sibling, s.dom⟩

/-- The nodes of a path from `v`. -/
def pathNodes : Fr → List PathStep → List PathNode
  | _, [] => []
  | v, s :: p => s.node v :: pathNodes s.up p

/-- The root of a path from `v`. -/
def pathRoot : Fr → List PathStep → Fr
  | v, [] => v
  | _, s :: p => pathRoot s.up p

/-! ### Rows of control 0 -/

theorem length_pathNodes (v : Fr) (p : List PathStep) : (pathNodes v p).length = p.length := by
  induction p generalizing v with
  | nil => rfl
  | cons s p ih => rw [pathNodes, List.length_cons, List.length_cons, ih]

theorem pathRoot_append (v : Fr) (p q : List PathStep) : pathRoot v (p ++ q) = pathRoot (pathRoot v p) q := by
  induction p generalizing v with
  | nil => rfl
  | cons s p ih => exact ih s.up

theorem pathNodes_append (v : Fr) (p q : List PathStep) : pathNodes v (p ++ q) = pathNodes v p ++ pathNodes (pathRoot v p) q := by
  induction p generalizing v with
  | nil => rfl
  | cons s p ih => exact congrArg _ (ih s.up)

/-- In a valid table all rows with control 0 and head flag 1 are right, except for one with zero words. -/
private theorem zero_rows {K : ℕ} (hK : 0 < K) {legacy : Bool} {T : List (Fin 6 → Fr)} (hv : ValidTable K K (Base.domainSpec legacy) T)
    (hb : (T.length + 1) * K < 2 ^ 129) : ∃ D dom, ∀ t ∈ T, t 3 = 0 → t 5 = 1 →
      t = ![D, 0, 0, 0, dom, 1] ∨ t 0 = Spec.rowsDigest (Spec.onTriples permBn) 0 [(t 4, t 1, t 2)] := by
  have hs : 0 < Base.domainSpec legacy ∧ Base.domainSpec legacy ≤ 2 ^ 64 := by cases legacy <;> norm_num [Base.domainSpec]
  induction hv with
  | last d dom => exact ⟨d, dom, fun t ht _ _ => .inl (List.mem_singleton.mp ht)⟩
  | block i d a b more rest hi hpos hv ih =>
    obtain ⟨D, hD⟩ : ∃ D, D = Spec.rowsDigest (Spec.onTriples permBn)
      (((i + more.length * K) * Base.domainSpec legacy : ℕ) : Fr) ((d, a, b) :: more) := ⟨_, rfl⟩
    rw [← hD] at hb ⊢
    have hl : (blockTable (Base.domainSpec legacy) K i D d a b more ++ rest).length = more.length + 1 + rest.length := by
      simp [blockTable, length_contTable]
      omega
    rw [hl] at hb
    have hb1 : (rest.length + 1) * K ≤ (more.length + 1 + rest.length + 1) * K := Nat.mul_le_mul_right _ (by omega)
    obtain ⟨D₀, dom₀, h₀⟩ := ih (by omega)
    refine ⟨D₀, dom₀, fun t ht h3 h5 => ?_⟩
    rcases List.mem_append.mp ht with h | h
    · rcases List.mem_cons.mp h with rfl | h
      · have h3 : (((i + more.length * K) * Base.domainSpec legacy : ℕ) : Fr) = 0 := h3
        have hm : (more.length + 1) * K ≤ (more.length + 1 + rest.length + 1) * K := Nat.mul_le_mul_right _ (by omega)
        rw [Nat.add_mul] at hm
        have hlt : (i + more.length * K) * Base.domainSpec legacy < r :=
          lt_of_le_of_lt (Nat.mul_le_mul (show i + more.length * K ≤ 2 ^ 129 by omega) hs.2) (by norm_num [r])
        have h0 : (i + more.length * K) * Base.domainSpec legacy = 0 :=
          Nat.eq_zero_of_dvd_of_lt ((ZMod.natCast_eq_zero_iff _ _).mp h3) hlt
        have h1 : i + more.length * K = 0 := by
          rcases Nat.mul_eq_zero.mp h0 with h | h
          · exact h
          · omega
        have h2 : more = [] := by
          by_contra hne
          have := hpos hne
          omega
        subst h2
        right
        rw [h3] at hD
        exact hD
      · exfalso
        obtain ⟨n, hn⟩ : ∃ n : ℕ, n = 0 := ⟨0, rfl⟩
        have key : ∀ (i : ℕ) (more : List (Fr × Fr × Fr)), t ∈ contTable (Base.domainSpec legacy) K i D more → t 5 = 0 := by
          intro i more
          induction more with
          | nil => intro h; simp [contTable] at h
          | cons w more ih =>
            obtain ⟨d, a, b⟩ := w
            intro h
            rcases List.mem_cons.mp h with rfl | h
            · rfl
            · exact ih h
        rw [key _ _ h] at h5
        exact zero_ne_one h5
    · exact h₀ t h h3 h5

/-- The digest of a node, in terms of the specification. -/
theorem PathNode.right_iff (short : Bool) (n : PathNode) :
    n.Right short ↔ n.digest = Spec.rowsDigest (Spec.onTriples permBn) 0 [(n.dom, n.left, n.right)] := by
  have e : hashWithDomainFr short ![n.left, n.right] n.dom =
      .ok (Spec.rowsDigest (Spec.onTriples permBn) ((0 * Base.domainSpec true : ℕ) : Fr) [(n.dom, n.left, n.right)]) := by
    rw [← C58_mpt .septidon true short true .serial (K := 1) (by norm_num) (by norm_num) n.dom n.left n.right]
    exact (C58_provable .septidon true true .serial (by norm_num) (by norm_num) (by norm_num) _ (by simp) (by simp) _).mpr
      ⟨by norm_num, rfl⟩
  rw [PathNode.Right, e, Nat.zero_mul, Nat.cast_zero]
  constructor
  · intro h
    exact (Except.ok.inj h).symm
  · intro h
    rw [h]

/-! ### Theorems -/

/-- **C108.** Lists of nodes that can be looked up in one table, exactly: all are right, except for one that may have zero words and any
digest and domain. -/
theorem C108_nodes (k : ChipKind) (short short' legacy : Bool) (mode : LoadMode) {K : ℕ} (hK : 0 < K) (hK' : K < 2 ^ 64)
    (nodes : List PathNode) (hlen : nodes.length < 2 ^ 63) :
    Lookups k short legacy mode K (nodes.map PathNode.row) ↔
      ∃ D dom, ∀ n ∈ nodes, n.Right short' ∨ n = ⟨D, 0, 0, dom⟩ := by
  constructor
  · rintro ⟨x, L, post, g, hacc, hl, -, hS, hst, hans⟩
    obtain ⟨T, hv, hT, hmem⟩ := table_of_accepted hacc
    rw [hl, hS, hst] at hv
    have hb : (T.length + 1) * K ≤ 2 ^ 64 * 2 ^ 64 := Nat.mul_le_mul (by omega) (by omega)
    obtain ⟨D, dom, h⟩ := zero_rows hK hv (by omega)
    refine ⟨D, dom, fun n hn => ?_⟩
    rcases h n.row (hmem _ (hans _ (List.mem_map_of_mem hn))) rfl rfl with h | h
    · right
      have h0 := congrFun h 0
      have h1 := congrFun h 1
      have h2 := congrFun h 2
      have h4 := congrFun h 4
      obtain ⟨a, b, c, d⟩ := n
      obtain rfl : a = D := h0
      obtain rfl : b = 0 := h1
      obtain rfl : c = 0 := h2
      obtain rfl : d = dom := h4
      rfl
    · left
      exact (n.right_iff short').mpr h
  · rintro ⟨D, dom, h⟩
    have key : ∀ nodes : List PathNode, (∀ n ∈ nodes, n.Right short' ∨ n = ⟨D, 0, 0, dom⟩) →
        ∃ T, ValidTable K K (Base.domainSpec legacy) T ∧ T.length ≤ nodes.length + 1 ∧ (![D, 0, 0, 0, dom, 1] : Fin 6 → Fr) ∈ T ∧
          ∀ n ∈ nodes, n.row ∈ T := by
      intro nodes
      induction nodes with
      | nil => exact fun _ => ⟨_, .last D dom, by simp, List.mem_singleton.mpr rfl, by simp⟩
      | cons n nodes ih =>
        intro h
        obtain ⟨T, hv, hl, hlast, hm⟩ := ih fun n hn => h n (List.mem_cons_of_mem _ hn)
        rcases h n List.mem_cons_self with h | rfl
        · have hv' := ValidTable.block (SPEC := Base.domainSpec legacy) (step := K) 0 n.dom n.left n.right [] T (Nat.zero_le _)
            (by simp) hv
          have e : blockTable (Base.domainSpec legacy) K 0 (Spec.rowsDigest (Spec.onTriples permBn)
              (((0 + ([] : List (Fr × Fr × Fr)).length * K) * Base.domainSpec legacy : ℕ) : Fr) [(n.dom, n.left, n.right)])
              n.dom n.left n.right [] ++ T = n.row :: T := by
            rw [(n.right_iff short')] at h
            simp [blockTable, contTable, PathNode.row, h]
          rw [e] at hv'
          refine ⟨n.row :: T, hv', by rw [List.length_cons, List.length_cons]; omega, List.mem_cons_of_mem _ hlast, fun m hm' => ?_⟩
          rcases List.mem_cons.mp hm' with rfl | hm'
          · exact List.mem_cons_self
          · exact List.mem_cons_of_mem _ (hm m hm')
        · refine ⟨T, hv, by rw [List.length_cons]; omega, hlast, fun m hm' => ?_⟩
          rcases List.mem_cons.mp hm' with rfl | hm'
          · exact hlast
          · exact hm m hm'
    obtain ⟨T, hv, hl, -, hm⟩ := key nodes h
    obtain ⟨x, L, post, g, hacc, h1, h2, h3, h4, h5, -⟩ := lookups_of_valid k short legacy mode hK' hv (by omega)
    refine ⟨x, L, post, g, hacc, h1, h2, h3, h4, fun t ht => ?_⟩
    obtain ⟨n, hn, rfl⟩ := List.mem_map.mp ht
    exact h5 _ (hm n hn)

/-- **C108**, right nodes bind: two paths of the same shape to one root are equal, or two of their nodes are a collision of
`hash_with_domain`. -/
theorem C108_bind (short : Bool) (v v' : Fr) (p p' : List PathStep) (hside : p.map PathStep.onRight = p'.map PathStep.onRight)
    (hroot : pathRoot v p = pathRoot v' p') (hp : ∀ n ∈ pathNodes v p, n.Right short) (hp' : ∀ n ∈ pathNodes v' p', n.Right short) :
    (v = v' ∧ p = p') ∨ ∃ n ∈ pathNodes v p, ∃ n' ∈ pathNodes v' p', n.digest = n'.digest ∧
      (n.dom, n.left, n.right) ≠ (n'.dom, n'.left, n'.right) ∧
      hashWithDomainFr short ![n.left, n.right] n.dom = hashWithDomainFr short ![n'.left, n'.right] n'.dom := by
  induction p generalizing v v' p' with
  | nil =>
    obtain rfl : p' = [] := by simpa using hside.symm
    exact .inl ⟨hroot, rfl⟩
  | cons s p ih =>
    cases p' with
    | nil => simp at hside
    | cons s' p' =>
      simp only [List.map_cons, List.cons.injEq] at hside
      have hn := hp (s.node v) List.mem_cons_self
      have hn' := hp' (s'.node v') List.mem_cons_self
      rcases ih s.up s'.up p' hside.2 hroot (fun n hn => hp n (List.mem_cons_of_mem _ hn))
        (fun n hn => hp' n (List.mem_cons_of_mem _ hn)) with ⟨e1, e2⟩ | ⟨n, h1, n', h2, h3⟩
      · have hd : (s.node v).digest = (s'.node v').digest := by
          unfold PathStep.node
          split <;> split <;> exact e1
        by_cases he : ((s.node v).dom, (s.node v).left, (s.node v).right) = ((s'.node v').dom, (s'.node v').left, (s'.node v').right)
        · left
          obtain ⟨o, b, d, u⟩ := s
          obtain ⟨o', b', d', u'⟩ := s'
          obtain rfl : o = o' := hside.1
          obtain rfl : u = u' := e1
          subst e2
          simp only [PathStep.node] at he
          cases o
          · simp only [Bool.false_eq_true, if_false, Prod.mk.injEq] at he
            obtain ⟨rfl, rfl, rfl⟩ := he
            exact ⟨rfl, rfl⟩
          · simp only [if_true, Prod.mk.injEq] at he
            obtain ⟨rfl, rfl, rfl⟩ := he
            exact ⟨rfl, rfl⟩
        · refine .inr ⟨_, List.mem_cons_self, _, List.mem_cons_self, hd, he, ?_⟩
          unfold PathNode.Right at hn hn'
          rw [hn, hn', hd]
      · exact .inr ⟨n, List.mem_cons_of_mem _ h1, n', List.mem_cons_of_mem _ h2, h3⟩

/-- **C108**, domains for leaves: if the first node of a path has the domain of leaves and the others have not, then paths of any two lengths
that follow one key from the root are equal, or two of their nodes are a collision. -/
theorem C108_depth (short : Bool) (leaf : Fr) (key : ℕ → Bool) (v v' : Fr) (p p' : List PathStep)
    (hkey : ∀ i s, p.reverse[i]? = some s → s.onRight = key i) (hkey' : ∀ i s, p'.reverse[i]? = some s → s.onRight = key i)
    (hleaf : ∀ i s, p[i]? = some s → (s.dom = leaf ↔ i = 0)) (hleaf' : ∀ i s, p'[i]? = some s → (s.dom = leaf ↔ i = 0))
    (hne : p ≠ []) (hne' : p' ≠ []) (hroot : pathRoot v p = pathRoot v' p')
    (hp : ∀ n ∈ pathNodes v p, n.Right short) (hp' : ∀ n ∈ pathNodes v' p', n.Right short) :
    (v = v' ∧ p = p') ∨ ∃ n ∈ pathNodes v p, ∃ n' ∈ pathNodes v' p', n.digest = n'.digest ∧
      (n.dom, n.left, n.right) ≠ (n'.dom, n'.left, n'.right) ∧
      hashWithDomainFr short ![n.left, n.right] n.dom = hashWithDomainFr short ![n'.left, n'.right] n'.dom := by
  -- the longer path, cut to the length of the shorter one
  have cut : ∀ (v v' : Fr) (p p' : List PathStep), p ≠ [] → p.length ≤ p'.length →
      (∀ i s, p.reverse[i]? = some s → s.onRight = key i) → (∀ i s, p'.reverse[i]? = some s → s.onRight = key i) →
      (∀ i s, p[i]? = some s → (s.dom = leaf ↔ i = 0)) → (∀ i s, p'[i]? = some s → (s.dom = leaf ↔ i = 0)) →
      pathRoot v p = pathRoot v' p' → (∀ n ∈ pathNodes v p, n.Right short) → (∀ n ∈ pathNodes v' p', n.Right short) →
      (v = v' ∧ p = p') ∨ ∃ n ∈ pathNodes v p, ∃ n' ∈ pathNodes v' p', n.digest = n'.digest ∧
        (n.dom, n.left, n.right) ≠ (n'.dom, n'.left, n'.right) ∧
        hashWithDomainFr short ![n.left, n.right] n.dom = hashWithDomainFr short ![n'.left, n'.right] n'.dom := by
    intro v v' p p' hne hlen hkey hkey' hleaf hleaf' hroot hp hp'
    obtain ⟨q, t, rfl, ht⟩ : ∃ q t, p' = q ++ t ∧ t.length = p.length :=
      ⟨p'.take (p'.length - p.length), p'.drop (p'.length - p.length), (List.take_append_drop _ _).symm, by
        rw [List.length_drop]; omega⟩
    rw [pathRoot_append] at hroot
    rw [pathNodes_append] at hp' ⊢
    have hside : p.map PathStep.onRight = t.map PathStep.onRight := by
      have : (p.reverse).map PathStep.onRight = (t.reverse).map PathStep.onRight := by
        refine List.ext_getElem (by simp [ht]) fun i h1 h2 => ?_
        simp only [List.length_map] at h1 h2
        rw [List.getElem_map, List.getElem_map, hkey i _ (List.getElem?_eq_getElem h1), hkey' i (t.reverse[i]'h2) ?_]
        rw [List.reverse_append, List.getElem?_append_left h2, List.getElem?_eq_getElem h2]
      rw [List.map_reverse, List.map_reverse] at this
      exact List.reverse_injective this
    rcases C108_bind short v (pathRoot v' q) p t hside hroot hp (fun n hn => hp' n (List.mem_append_right _ hn)) with
      ⟨e1, e2⟩ | ⟨n, h1, n', h2, h3⟩
    · subst e2
      left
      cases q with
      | nil => exact ⟨e1, rfl⟩
      | cons s q =>
        exfalso
        cases p with
        | nil => exact hne rfl
        | cons s' p =>
          have h1 := (hleaf 0 s' rfl).mpr rfl
          have h2 := (hleaf' (s :: q).length s' (by simp)).mp h1
          simp at h2
    · exact .inr ⟨n, h1, n', List.mem_append_right _ h2, h3⟩
  rcases Nat.le_total p.length p'.length with hl | hl
  · exact cut v v' p p' hne hl hkey hkey' hleaf hleaf' hroot hp hp'
  · rcases cut v' v p' p hne' hl hkey' hkey hleaf' hleaf hroot.symm hp' hp with ⟨e1, e2⟩ | ⟨n, h1, n', h2, h3, h4, h5⟩
    · exact .inl ⟨e1.symm, e2.symm⟩
    · exact .inr ⟨n', h2, n, h1, h3.symm, Ne.symm h4, h5.symm⟩

/-- **C108**, one node: a row with control 0 and words that are not both zero, answered by an accepted table, is right. -/
theorem C108_right {x : Run Fr} {k : ChipKind} {short : Bool} {L : Layouter Fr} {post : List (Op Fr)} {g : Grid Fr} (short' : Bool)
    (h : x.Accepted k short L post g) (hstep : x.step = x.STEP) (hpos : 0 < x.STEP) (n : PathNode) (hn : Answers x g n.row)
    (h0 : ¬ (n.left = 0 ∧ n.right = 0)) : n.Right short' := by
  obtain ⟨D, dom, hd⟩ := (C108_nodes k short short' x.legacy x.mode hpos h.legal.STEP_lt [n] (by norm_num)).mp
    ⟨x, L, post, g, h, rfl, rfl, rfl, hstep, fun t ht => by
      rw [List.map_singleton, List.mem_singleton] at ht
      rw [ht]
      exact hn⟩
  rcases hd n (List.mem_singleton.mpr rfl) with hd | rfl
  · exact hd
  · exact absurd ⟨rfl, rfl⟩ h0

/-- **C108**, paths in an accepted table: if no node on them has two zero words, two paths of the same shape to one root are equal, or the
table holds a collision of `hash_with_domain`. -/
theorem C108_paths {x : Run Fr} {k : ChipKind} {short : Bool} {L : Layouter Fr} {post : List (Op Fr)} {g : Grid Fr} (short' : Bool)
    (h : x.Accepted k short L post g) (hstep : x.step = x.STEP) (hpos : 0 < x.STEP) (v v' : Fr) (p p' : List PathStep)
    (hp : ∀ n ∈ pathNodes v p, Answers x g n.row ∧ ¬ (n.left = 0 ∧ n.right = 0))
    (hp' : ∀ n ∈ pathNodes v' p', Answers x g n.row ∧ ¬ (n.left = 0 ∧ n.right = 0))
    (hside : p.map PathStep.onRight = p'.map PathStep.onRight) (hroot : pathRoot v p = pathRoot v' p') :
    (v = v' ∧ p = p') ∨ ∃ n n' : PathNode, Answers x g n.row ∧ Answers x g n'.row ∧ n.digest = n'.digest ∧
      (n.dom, n.left, n.right) ≠ (n'.dom, n'.left, n'.right) ∧
      hashWithDomainFr short' ![n.left, n.right] n.dom = hashWithDomainFr short' ![n'.left, n'.right] n'.dom := by
  have key := C108_right short' h hstep hpos
  rcases C108_bind short' v v' p p' hside hroot (fun n hn => key n (hp n hn).1 (hp n hn).2)
    (fun n hn => key n (hp' n hn).1 (hp' n hn).2) with e | ⟨n, h1, n', h2, h3⟩
  · exact .inl e
  · exact .inr ⟨n, n', (hp n h1).1, (hp' n' h2).1, h3⟩

/-- **C108**, completeness: right paths can be looked up, any number of them in one table. -/
theorem C108_complete (k : ChipKind) (short short' legacy : Bool) (mode : LoadMode) {K : ℕ} (hK : 0 < K) (hK' : K < 2 ^ 64)
    (paths : List (Fr × List PathStep)) (hlen : (paths.flatMap fun p => pathNodes p.1 p.2).length < 2 ^ 63)
    (hp : ∀ p ∈ paths, ∀ n ∈ pathNodes p.1 p.2, n.Right short') :
    Lookups k short legacy mode K ((paths.flatMap fun p => pathNodes p.1 p.2).map PathNode.row) := by
  refine (C108_nodes k short short' legacy mode hK hK' _ hlen).mpr ⟨0, 0, fun n hn => .inl ?_⟩
  obtain ⟨p, h1, h2⟩ := List.mem_flatMap.mp hn
  exact hp p h1 n h2

/-- **C108**, the condition on zero words is needed: below any node `v` of any tree two zero leaves can be looked up. -/
theorem C108_forged (k : ChipKind) (short short' legacy : Bool) (mode : LoadMode) {K : ℕ} (hK : 0 < K) (hK' : K < 2 ^ 64) (v : Fr)
    (p : List PathStep) (hlen : p.length + 1 < 2 ^ 63) (hp : ∀ n ∈ pathNodes v p, n.Right short') (onRight : Bool) (dom : Fr) :
    Lookups k short legacy mode K ((pathNodes 0 (⟨onRight, 0, dom, v⟩ :: p)).map PathNode.row) ∧
      pathRoot 0 (⟨onRight, 0, dom, v⟩ :: p) = pathRoot v p := by
  refine ⟨(C108_nodes k short short' legacy mode hK hK' _ (by rw [length_pathNodes, List.length_cons]; exact hlen)).mpr ⟨v, dom, fun n hn => ?_⟩, rfl⟩
  rcases List.mem_cons.mp hn with rfl | hn
  · right
    cases onRight <;> rfl
  · exact .inl (hp n hn)

/-- **C108**, with proofs: a prover that convinces the verifier of a circuit which looks up two paths of the same shape to one root, with no
node of two zero words, has looked up equal paths, or nodes that are a collision. -/
theorem C108_prover {x : Run Fr} {k : ChipKind} {short : Bool} (short' : Bool) (hbn : x.IsBn k short) (hx : x.Legal)
    (hstep : x.step = x.STEP) (hpos : 0 < x.STEP) {L' : Layouter Fr} (hL : x.Loads L') {post : List (Op Fr)} {cs : CS Fr}
    {ws : List (Wide Fr)} (hgates : ∀ p ∈ x.newGates, p ∈ cs.gates) (hlookups : ∀ l ∈ x.newLookups, l ∈ cs.lookups)
    (quietFixed : ∀ o ∈ x.before.ops ++ post, ∀ c r v, o.FixedWrite c r v → ¬ x.FixedCol c)
    (quietSel : ∀ c r, Op.selector c r ∈ x.before.ops ++ post → ¬ x.Sel c) {n : ℕ} {ω δ : Fr} {K : Key Fr}
    (hK : keygenWith cs ws (L'.ops ++ post) n ω δ = .ok K) (hω : IsPrimitiveRoot ω n) (hδ : DistinctNames cs n ω δ)
    {P : Prover Fr} (hP : P.Short n) (hlt : K.slack * Base.Bn256.r ^ 4 < Nat.card {c // P.Convinces K c})
    {q : Expr Fr} {es : Fin 6 → Expr Fr} (hw : tableLookup x.qEnable x.hashTable q es ∈ ws) {g : Grid Fr} (hg : g = K.grid P.advice)
    (v v' : Fr) (p p' : List PathStep)
    (hp : ∀ m ∈ pathNodes v p ++ pathNodes v' p', (∃ row < K.usable, q.eval g row = 1 ∧ ∀ i, (es i).eval g row = m.row i) ∧
      ¬ (m.left = 0 ∧ m.right = 0))
    (hside : p.map PathStep.onRight = p'.map PathStep.onRight) (hroot : pathRoot v p = pathRoot v' p') :
    (v = v' ∧ p = p') ∨ ∃ n n' : PathNode, Answers x g n.row ∧ Answers x g n'.row ∧ n.digest = n'.digest ∧
      (n.dom, n.left, n.right) ≠ (n'.dom, n'.left, n'.right) ∧
      hashWithDomainFr short' ![n.left, n.right] n.dom = hashWithDomainFr short' ![n'.left, n'.right] n'.dom := by
  subst hg
  obtain ⟨hacc, h⟩ := C92_answers hbn hx hL hgates hlookups quietFixed quietSel hK hω hδ hP hlt hw
  have key : ∀ m ∈ pathNodes v p ++ pathNodes v' p', Answers x (K.grid P.advice) m.row ∧ ¬ (m.left = 0 ∧ m.right = 0) := by
    intro m hm
    obtain ⟨⟨row, h1, h2, h3⟩, h4⟩ := hp m hm
    refine ⟨?_, h4⟩
    have := h row h1 h2
    rwa [show (fun i => (es i).eval (K.grid P.advice) row) = m.row from funext h3] at this
  exact C108_paths short' hacc hstep hpos v v' p p' (fun n hn => key n (List.mem_append_left _ hn))
    (fun n hn => key n (List.mem_append_right _ hn)) hside hroot

/-- What a prover of the host circuit of C93 shows of a node: the cells of a request. -/
def PathNode.cells (n : PathNode) : Fin 4 → Fr := ![n.digest, n.left, n.right, n.dom]

/-- The prover has the nodes in the rows of the requests and convinces the verifier, for enough challenges. -/
def Opens (K : Key Fr) (kk : ℕ) (nodes : List PathNode) : Prop :=
  ∃ P : Prover Fr, P.Short (2 ^ kk) ∧
    (∀ i n, nodes[i]? = some n → ∀ j : Fin 4, (P.advice (6 + j)).eval (omega kk ^ i) = n.cells j) ∧
    58 * 2 ^ kk * Base.Bn256.r ^ 4 < Nat.card {c // P.Convinces K c}

/-- **C108**, for the host circuit of C93 with as many requests as the tree is deep: one key for all trees; a path without nodes of two zero
words is opened by a convincing prover if and only if its nodes are right, and two openings of the same shape with one root, in two proofs,
are equal or hold a collision. -/
theorem C108_host {k : ChipKind} {ch : Chip Fr 3} (hch : bnChip k = .ok ch) (short short' legacy : Bool) (mode : LoadMode)
    {STEP calcs m kk : ℕ} (hpos : 0 < STEP) (hm : m < calcs) (hkk : kk ≤ 28) (h1 : STEP + 8 ≤ 2 ^ kk)
    (h2 : calcs + 7 ≤ 2 ^ kk) (h3 : k.rows * calcs + 6 ≤ 2 ^ kk) {x : Run Fr}
    (hx : x = hostRun ch short legacy mode STEP .empty calcs) :
    ∃ L, x.load = .ok L ∧ ∃ K,
      keygenWith x.configured.2 [hostLookup] (L.ops ++ hostOps (q := 4) m 0) (2 ^ kk) (omega kk) delta = .ok K ∧
      (∀ v p, p.length = m → (∀ n ∈ pathNodes v p, ¬ (n.left = 0 ∧ n.right = 0)) →
        (Opens K kk (pathNodes v p) ↔ ∀ n ∈ pathNodes v p, n.Right short')) ∧
      ∀ v v' p p', p.length = m → p.map PathStep.onRight = p'.map PathStep.onRight →
        (∀ n ∈ pathNodes v p ++ pathNodes v' p', ¬ (n.left = 0 ∧ n.right = 0)) → pathRoot v p = pathRoot v' p' →
        Opens K kk (pathNodes v p) → Opens K kk (pathNodes v' p') →
        (v = v' ∧ p = p') ∨ ∃ n ∈ pathNodes v p, ∃ n' ∈ pathNodes v' p', n.digest = n'.digest ∧
          (n.dom, n.left, n.right) ≠ (n'.dom, n'.left, n'.right) ∧
          hashWithDomainFr short' ![n.left, n.right] n.dom = hashWithDomainFr short' ![n'.left, n'.right] n'.dom := by
  obtain ⟨L, hL, K, hK, -, -, h⟩ := C93_host hch short short' legacy mode hpos hm hkk h1 h2 h3 hx
  have key : ∀ v p, p.length = m → (∀ n ∈ pathNodes v p, ¬ (n.left = 0 ∧ n.right = 0)) →
      (Opens K kk (pathNodes v p) ↔ ∀ n ∈ pathNodes v p, n.Right short') := by
    intro v p hp h0
    have hlen : (pathNodes v p).length = m := by rw [length_pathNodes, hp]
    obtain ⟨w, hw⟩ : ∃ w : ℕ → Fin 4 → Fr, ∀ i n, (pathNodes v p)[i]? = some n → w i = n.cells :=
      ⟨fun i => (((pathNodes v p)[i]?).map PathNode.cells).getD 0, fun i n hi => by simp [hi]⟩
    have hget : ∀ i < m, ∃ n, (pathNodes v p)[i]? = some n ∧ n ∈ pathNodes v p ∧ w i = n.cells := fun i hi =>
      ⟨_, List.getElem?_eq_getElem (by omega), List.getElem_mem _, hw i _ (List.getElem?_eq_getElem (by omega))⟩
    have hlt : ∀ i n, (pathNodes v p)[i]? = some n → i < m := fun i n hi => by
      have := (List.getElem?_eq_some_iff.mp hi).1
      omega
    have e1 : Opens K kk (pathNodes v p) ↔ ∃ P : Prover Fr, P.Short (2 ^ kk) ∧
        (∀ i < m, ∀ j : Fin 4, (P.advice (6 + j)).eval (omega kk ^ i) = w i j) ∧
        58 * 2 ^ kk * Base.Bn256.r ^ 4 < Nat.card {c // P.Convinces K c} := by
      refine exists_congr fun P => and_congr_right fun _ => and_congr_left fun _ => ⟨fun hP i hi => ?_, fun hP i n hi => ?_⟩
      · obtain ⟨n, hn, -, e⟩ := hget i hi
        rw [e]
        exact hP i n hn
      · rw [← hw i n hi]
        exact hP i (hlt i n hi)
    have e2 : (∀ n ∈ pathNodes v p, n.Right short') ↔
        ∀ i < m, hashWithDomainFr short' ![w i 1, w i 2] (w i 3) = .ok (w i 0) := by
      constructor
      · intro hr i hi
        obtain ⟨n, -, hn, e⟩ := hget i hi
        rw [e]
        exact hr n hn
      · intro hr n hn
        obtain ⟨i, hi⟩ := List.getElem?_of_mem hn
        have := hr i (hlt i n hi)
        rw [hw i n hi] at this
        exact this
    rw [e1, e2]
    refine (h w fun i hi => ?_).1
    obtain ⟨n, -, hn, e⟩ := hget i hi
    rw [e]
    exact h0 n hn
  refine ⟨L, hL, K, hK, key, fun v v' p p' hp hside h0 hroot ho ho' => ?_⟩
  have hp' : p'.length = m := by
    have := congrArg List.length hside
    rw [List.length_map, List.length_map] at this
    omega
  exact C108_bind short' v v' p p' hside hroot ((key v p hp fun n hn => h0 n (List.mem_append_left _ hn)).mp ho)
    ((key v' p' hp' fun n hn => h0 n (List.mem_append_right _ hn)).mp ho')

/-! ### Examples -/

/-- Every value has a path of any shape, with right nodes. -/
theorem exists_path (short : Bool) (v : Fr) (l : List (Bool × Fr × Fr)) :
    ∃ p : List PathStep, (p.map fun s => (s.onRight, s.sibling, s.dom)) = l ∧ ∀ n ∈ pathNodes v p, n.Right short := by
  induction l generalizing v with
  | nil => exact ⟨[], rfl, by simp [pathNodes]⟩
  | cons w l ih =>
    obtain ⟨o, b, d⟩ := w
    obtain ⟨D, hD⟩ : ∃ D, (PathStep.node ⟨o, b, d, D⟩ v).Right short := by
      refine ⟨Spec.rowsDigest (Spec.onTriples permBn) 0 [(d, if o then b else v, if o then v else b)], ?_⟩
      rw [PathNode.right_iff]
      cases o <;> rfl
    obtain ⟨p, h1, h2⟩ := ih D
    refine ⟨⟨o, b, d, D⟩ :: p, by rw [List.map_cons, h1], fun n hn => ?_⟩
    rcases List.mem_cons.mp hn with rfl | hn
    · exact hD
    · exact h2 n hn

/-- A path of three steps, with two domains, looked up in one table together with two zero leaves below its first node. -/
example : ∃ p : List PathStep, (p.map fun s => (s.onRight, s.sibling, s.dom)) = [(true, 5, 1), (false, 6, 2), (true, 7, 2)] ∧
    Lookups .septidon true false .serial 62 ((pathNodes 9 p).map PathNode.row) ∧
    Lookups .septidon true false .serial 62 ((pathNodes 0 (⟨true, 0, 3, 9⟩ :: p)).map PathNode.row) := by
  obtain ⟨p, h1, h2⟩ := exists_path true 9 [(true, 5, 1), (false, 6, 2), (true, 7, 2)]
  have hl : p.length = 3 := by simpa using congrArg List.length h1
  refine ⟨p, h1, ?_, (C108_forged .septidon true true false .serial (by norm_num) (by norm_num) 9 p (by omega) h2 true 3).1⟩
  have := C108_complete .septidon true true false .serial (K := 62) (by norm_num) (by norm_num) [(9, p)] (by simp [length_pathNodes, hl]) (by simpa using h2)
  simpa using this

/-- The hypotheses of `C108_paths` hold for the path of the last example, with itself. -/
example : ∃ (x : Run Fr) (L : Layouter Fr) (post : List (Op Fr)) (g : Grid Fr) (p : List PathStep), x.Accepted .septidon true L post g ∧
    x.step = x.STEP ∧ 0 < x.STEP ∧ p.length = 2 ∧ ∀ n ∈ pathNodes 9 p, Answers x g n.row ∧ ¬ (n.left = 0 ∧ n.right = 0) := by
  obtain ⟨p, h1, h2⟩ := exists_path true 9 [(true, 5, 1), (false, 6, 2)]
  have hl : p.length = 2 := by simpa using congrArg List.length h1
  obtain ⟨x, L, post, g, hacc, -, -, hS, hst, h⟩ := C108_complete .septidon true true false .serial (K := 62) (by norm_num) (by norm_num)
    [(9, p)] (by simp [length_pathNodes, hl]) (by simpa using h2)
  refine ⟨x, L, post, g, p, hacc, by rw [hS, hst], by rw [hS]; norm_num, hl, fun n hn => ⟨h _ ?_, ?_⟩⟩
  · exact List.mem_map_of_mem (by simpa using hn)
  · obtain ⟨s, s', rfl⟩ : ∃ s s', p = [s, s'] := List.length_eq_two.mp hl
    obtain ⟨o, b, d, u⟩ := s
    obtain ⟨o', b', d', u'⟩ := s'
    simp only [List.map_cons, List.map_nil, List.cons.injEq, Prod.mk.injEq] at h1
    obtain ⟨⟨rfl, rfl, rfl⟩, ⟨rfl, rfl, rfl⟩, -⟩ := h1
    have e5 : (5 : Fr) ≠ 0 := by decide +kernel
    have e6 : (6 : Fr) ≠ 0 := by decide +kernel
    simp only [pathNodes, PathStep.node, List.mem_cons, List.not_mem_nil, or_false, if_true, Bool.false_eq_true, if_false] at hn
    rcases hn with rfl | rfl
    · exact fun h => e5 h.1
    · exact fun h => e6 h.2

/-- The host circuit with three requests in 2^8 rows opens paths of three steps. -/
example {k : ChipKind} {ch : Chip Fr 3} (hch : bnChip k = .ok ch) (short legacy : Bool) (mode : LoadMode) (v : Fr) (p : List PathStep)
    (hp : p.length = 3) (h0 : ∀ n ∈ pathNodes v p, ¬ (n.left = 0 ∧ n.right = 0)) :
    ∃ K, Opens K 8 (pathNodes v p) ↔ ∀ n ∈ pathNodes v p, n.Right short := by
  obtain ⟨-, -, K, -, h, -⟩ := C108_host hch short short legacy mode (STEP := 62) (calcs := 4) (m := 3) (kk := 8)
    (by norm_num) (by norm_num) (by norm_num) (by norm_num) (by norm_num) (by cases k <;> simp [ChipKind.rows]) rfl
  exact ⟨K, h v p hp h0⟩

/-- Paths of two and of three steps that satisfy the hypotheses of `C108_depth` but the one on the roots, and have different roots unless
there is a collision. -/
example : ∃ p p' : List PathStep, p.length = 2 ∧ p'.length = 3 ∧ (∀ n ∈ pathNodes 9 p, n.Right true) ∧ (∀ n ∈ pathNodes 4 p', n.Right true) ∧
    (pathRoot 9 p = pathRoot 4 p' → ∃ n ∈ pathNodes 9 p, ∃ n' ∈ pathNodes 4 p', n.digest = n'.digest ∧
      (n.dom, n.left, n.right) ≠ (n'.dom, n'.left, n'.right)) := by
  obtain ⟨p, h1, h2⟩ := exists_path true 9 [(true, 5, 1), (false, 6, 2)]
  obtain ⟨p', h1', h2'⟩ := exists_path true 4 [(false, 5, 1), (true, 5, 2), (false, 6, 2)]
  have hl : p.length = 2 := by simpa using congrArg List.length h1
  have hl' : p'.length = 3 := by simpa using congrArg List.length h1'
  refine ⟨p, p', hl, hl', h2, h2', fun hroot => ?_⟩
  obtain ⟨⟨o, b, d, u⟩, ⟨o', b', d', u'⟩, rfl⟩ := List.length_eq_two.mp hl
  obtain ⟨⟨a1, a2, a3, a4⟩, ⟨b1, b2, b3, b4⟩, ⟨c1, c2, c3, c4⟩, rfl⟩ := List.length_eq_three.mp hl'
  simp only [List.map_cons, List.map_nil, List.cons.injEq, Prod.mk.injEq] at h1 h1'
  obtain ⟨⟨rfl, rfl, rfl⟩, ⟨rfl, rfl, rfl⟩, -⟩ := h1
  obtain ⟨⟨rfl, rfl, rfl⟩, ⟨rfl, rfl, rfl⟩, ⟨rfl, rfl, rfl⟩, -⟩ := h1'
  have e : (2 : Fr) ≠ 1 := by decide +kernel
  rcases C108_depth true 1 (fun i => i == 1) 9 4 _ _ (by
      rintro (_ | _ | i) s hs <;> simp at hs <;> subst hs <;> rfl) (by
      rintro (_ | _ | _ | i) s hs <;> simp at hs <;> subst hs <;> rfl) (by
      rintro (_ | _ | i) s hs <;> simp at hs <;> subst hs <;> simp [e]) (by
      rintro (_ | _ | _ | i) s hs <;> simp at hs <;> subst hs <;> simp [e]) (by simp) (by simp) hroot h2 h2' with
    ⟨-, h⟩ | ⟨n, q1, n', q2, q3, q4, -⟩
  · simp at h
  · exact ⟨n, q1, n', q2, q3, q4⟩

/-- Paths of the same shape with different leaves and the same root would be a collision. -/
example (v v' : Fr) (hne : v ≠ v') (p p' : List PathStep) (hside : p.map PathStep.onRight = p'.map PathStep.onRight)
    (hroot : pathRoot v p = pathRoot v' p') (hp : ∀ n ∈ pathNodes v p, n.Right true) (hp' : ∀ n ∈ pathNodes v' p', n.Right true) :
    ∃ n ∈ pathNodes v p, ∃ n' ∈ pathNodes v' p', n.digest = n'.digest ∧
      (n.dom, n.left, n.right) ≠ (n'.dom, n'.left, n'.right) ∧
      hashWithDomainFr true ![n.left, n.right] n.dom = hashWithDomainFr true ![n'.left, n'.right] n'.dom :=
  (C108_bind true v v' p p' hside hroot hp hp').resolve_left fun h => hne h.1

end Props
