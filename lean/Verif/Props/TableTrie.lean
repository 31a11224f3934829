import Verif.Props.TablePath

/-!
# Tries made with `hash_with_domain`: C109

The crate is made for a trie (`spec/hash-table.md`): leaves and branches are nodes, told apart by the domain, and an empty trie has the
value 0. What is shown by a path of nodes looked up in the table, about a trie that is known by its root only?
-/

set_option linter.unusedVariables false

namespace Props
open Halo2 Circuit Circuit.Table Base.Bn256

/-! ### Specification -/

/-- Tries: a leaf has two words (key and value), a branch a domain and two tries. -/
inductive Trie where
  | empty
  | leaf (a b : Fr)
  | branch (dom : Fr) (l r : Trie)

/-- What is reached from the root; `true` is the right side. -/
def Trie.at : Trie → List Bool → Option Trie
  | t, [] => some t
  | .branch _ l r, b :: bs => if b then r.at bs else l.at bs
  | _, _ :: _ => none

/-- The root and the nodes of a trie: leaves have the domain `leaf`, branches have not. -/
inductive Trie.Nodes (leaf : Fr) : Trie → Fr → List PathNode → Prop
  | empty : Nodes leaf .empty 0 []
  | leaf (D a b : Fr) : Nodes leaf (.leaf a b) D [⟨D, a, b, leaf⟩]
  | branch (D dom a b : Fr) (l r : Trie) (ns ms : List PathNode) (h : dom ≠ leaf) (hl : Nodes leaf l a ns) (hr : Nodes leaf r b ms) :
    Nodes leaf (.branch dom l r) D (⟨D, a, b, dom⟩ :: (ns ++ ms))

/-- Two nodes that are a collision of `hash_with_domain`. -/
def PathNode.Collide (short : Bool) (n n' : PathNode) : Prop :=
  n.digest = n'.digest ∧ (n.dom, n.left, n.right) ≠ (n'.dom, n'.left, n'.right) ∧
    hashWithDomainFr short ![n.left, n.right] n.dom = hashWithDomainFr short ![n'.left, n'.right] n'.dom

/-- All branches have a domain that is not the one of leaves. -/
def Trie.Typed (leaf : Fr) : Trie → Prop
  | .empty => True
  | .leaf _ _ => True
  | .branch dom l r => dom ≠ leaf ∧ l.Typed leaf ∧ r.Typed leaf

/-! ### Clashes -/

/-- Two nodes with the same digest and different words or domains. -/
def PathNode.Clash (n n' : PathNode) : Prop := n.digest = n'.digest ∧ (n.dom, n.left, n.right) ≠ (n'.dom, n'.left, n'.right)

theorem PathNode.clash {n n' : PathNode} (hd : n.digest = n'.digest) :
    (n.dom = n'.dom ∧ n.left = n'.left ∧ n.right = n'.right) ∨ n.Clash n' := by
  by_cases he : (n.dom, n.left, n.right) = (n'.dom, n'.left, n'.right)
  · left
    simpa using he
  · exact .inr ⟨hd, he⟩

theorem PathNode.Clash.collide {short : Bool} {n n' : PathNode} (h : n.Clash n') (hn : n.Right short) (hn' : n'.Right short) :
    n.Collide short n' := by
  refine ⟨h.1, h.2, ?_⟩
  unfold PathNode.Right at hn hn'
  rw [hn, hn', h.1]

theorem trie_bind {leaf D : Fr} {t t' : Trie} {ns ns' : List PathNode} (h : t.Nodes leaf D ns) (h' : t'.Nodes leaf D ns') :
    t = t' ∨ (∃ n ∈ ns, ∃ n' ∈ ns', n.Clash n') ∨ ∃ n ∈ ns ++ ns', n.digest = 0 := by
  induction h generalizing t' ns' with
  | empty =>
    cases h' with
    | empty => exact .inl rfl
    | leaf _ a b => exact .inr (.inr ⟨_, List.mem_append_right _ List.mem_cons_self, rfl⟩)
    | branch _ dom a b l r ns ms hd hl hr => exact .inr (.inr ⟨_, List.mem_append_right _ List.mem_cons_self, rfl⟩)
  | leaf D a b =>
    cases h' with
    | empty => exact .inr (.inr ⟨_, List.mem_append_left _ List.mem_cons_self, rfl⟩)
    | leaf _ a' b' =>
      rcases PathNode.clash (n := ⟨D, a, b, leaf⟩) (n' := ⟨D, a', b', leaf⟩) rfl with ⟨-, h1, h2⟩ | hc
      · obtain rfl : a = a' := h1
        obtain rfl : b = b' := h2
        exact .inl rfl
      · exact .inr (.inl ⟨_, List.mem_cons_self, _, List.mem_cons_self, hc⟩)
    | branch _ dom a' b' l r ns ms hd hl hr =>
      rcases PathNode.clash (n := ⟨D, a, b, leaf⟩) (n' := ⟨D, a', b', dom⟩) rfl with ⟨h1, -, -⟩ | hc
      · exact absurd h1.symm hd
      · exact .inr (.inl ⟨_, List.mem_cons_self, _, List.mem_cons_self, hc⟩)
  | branch D dom a b l r ns ms hd hl hr ihl ihr =>
    cases h' with
    | empty => exact .inr (.inr ⟨_, List.mem_append_left _ List.mem_cons_self, rfl⟩)
    | leaf _ a' b' =>
      rcases PathNode.clash (n := ⟨D, a, b, dom⟩) (n' := ⟨D, a', b', leaf⟩) rfl with ⟨h1, -, -⟩ | hc
      · exact absurd h1 hd
      · exact .inr (.inl ⟨_, List.mem_cons_self, _, List.mem_cons_self, hc⟩)
    | branch _ dom' a' b' l' r' ns' ms' hd' hl' hr' =>
      rcases PathNode.clash (n := ⟨D, a, b, dom⟩) (n' := ⟨D, a', b', dom'⟩) rfl with ⟨h1, h2, h3⟩ | hc
      · obtain rfl : dom = dom' := h1
        obtain rfl : a = a' := h2
        obtain rfl : b = b' := h3
        have s1 : ∀ {n}, n ∈ ns → n ∈ (⟨D, a, b, dom⟩ : PathNode) :: (ns ++ ms) := fun h =>
          List.mem_cons_of_mem _ (List.mem_append_left _ h)
        have s2 : ∀ {n}, n ∈ ms → n ∈ (⟨D, a, b, dom⟩ : PathNode) :: (ns ++ ms) := fun h =>
          List.mem_cons_of_mem _ (List.mem_append_right _ h)
        have s3 : ∀ {n}, n ∈ ns' → n ∈ (⟨D, a, b, dom⟩ : PathNode) :: (ns' ++ ms') := fun h =>
          List.mem_cons_of_mem _ (List.mem_append_left _ h)
        have s4 : ∀ {n}, n ∈ ms' → n ∈ (⟨D, a, b, dom⟩ : PathNode) :: (ns' ++ ms') := fun h =>
          List.mem_cons_of_mem _ (List.mem_append_right _ h)
        rcases ihl hl' with rfl | ⟨n, q1, n', q2, q3⟩ | ⟨n, q1, q2⟩
        · rcases ihr hr' with rfl | ⟨n, q1, n', q2, q3⟩ | ⟨n, q1, q2⟩
          · exact .inl rfl
          · exact .inr (.inl ⟨n, s2 q1, n', s4 q2, q3⟩)
          · refine .inr (.inr ⟨n, ?_, q2⟩)
            rcases List.mem_append.mp q1 with q | q
            · exact List.mem_append_left _ (s2 q)
            · exact List.mem_append_right _ (s4 q)
        · exact .inr (.inl ⟨n, s1 q1, n', s3 q2, q3⟩)
        · refine .inr (.inr ⟨n, ?_, q2⟩)
          rcases List.mem_append.mp q1 with q | q
          · exact List.mem_append_left _ (s1 q)
          · exact List.mem_append_right _ (s3 q)
      · exact .inr (.inl ⟨_, List.mem_cons_self, _, List.mem_cons_self, hc⟩)

theorem trie_path {leaf D w : Fr} {t : Trie} {ns : List PathNode} (h : t.Nodes leaf D ns) (p : List PathStep)
    (hb : ∀ s ∈ p, s.dom ≠ leaf) (hroot : pathRoot w p = D) :
    (∃ u us, t.at (p.reverse.map PathStep.onRight) = some u ∧ u.Nodes leaf w us ∧ us ⊆ ns) ∨
      (∃ n ∈ ns, ∃ n' ∈ pathNodes w p, n.Clash n') ∨ ∃ n ∈ pathNodes w p, n.digest = 0 := by
  induction p using List.reverseRecOn generalizing D t ns with
  | nil =>
    subst hroot
    exact .inl ⟨t, ns, by cases t <;> rfl, h, List.Subset.refl _⟩
  | append_singleton p s ih =>
    rw [pathRoot_append] at hroot
    rw [pathNodes_append]
    have hs : s.node (pathRoot w p) ∈ pathNodes w p ++ pathNodes (pathRoot w p) [s] := List.mem_append_right _ List.mem_cons_self
    have hD : (s.node (pathRoot w p)).digest = D := by
      rw [← hroot]
      unfold PathStep.node
      split <;> rfl
    have hdom : (s.node (pathRoot w p)).dom ≠ leaf := by
      have : (s.node (pathRoot w p)).dom = s.dom := by
        unfold PathStep.node
        split <;> rfl
      rw [this]
      exact hb s (by simp)
    cases h with
    | empty => exact .inr (.inr ⟨_, hs, hD⟩)
    | leaf _ a b =>
      rcases PathNode.clash (n := ⟨D, a, b, leaf⟩) hD.symm with ⟨h1, -, -⟩ | hc
      · exact absurd h1.symm hdom
      · exact .inr (.inl ⟨_, List.mem_cons_self, _, hs, hc⟩)
    | branch _ dom a b l r ns ms hd hl hr =>
      rcases PathNode.clash (n := ⟨D, a, b, dom⟩) hD.symm with ⟨h1, h2, h3⟩ | hc
      · have s1 : ∀ {n}, n ∈ ns → n ∈ (⟨D, a, b, dom⟩ : PathNode) :: (ns ++ ms) := fun h =>
          List.mem_cons_of_mem _ (List.mem_append_left _ h)
        have s2 : ∀ {n}, n ∈ ms → n ∈ (⟨D, a, b, dom⟩ : PathNode) :: (ns ++ ms) := fun h =>
          List.mem_cons_of_mem _ (List.mem_append_right _ h)
        have hb0 : ∀ s ∈ p, s.dom ≠ leaf := fun s h => hb s (List.mem_append_left _ h)
        rw [List.reverse_append, List.reverse_singleton, List.singleton_append, List.map_cons]
        cases ho : s.onRight
        · have e : pathRoot w p = a := by
            have : (s.node (pathRoot w p)).left = pathRoot w p := by simp [PathStep.node, ho]
            rw [← this]
            exact h2.symm
          rcases ih hl hb0 e with ⟨u, us, q1, q2, q3⟩ | ⟨n, q1, n', q2, q3⟩ | ⟨n, q1, q2⟩
          · exact .inl ⟨u, us, by simpa [Trie.at] using q1, q2, fun n h => s1 (q3 h)⟩
          · exact .inr (.inl ⟨n, s1 q1, n', List.mem_append_left _ q2, q3⟩)
          · exact .inr (.inr ⟨n, List.mem_append_left _ q1, q2⟩)
        · have e : pathRoot w p = b := by
            have : (s.node (pathRoot w p)).right = pathRoot w p := by simp [PathStep.node, ho]
            rw [← this]
            exact h3.symm
          rcases ih hr hb0 e with ⟨u, us, q1, q2, q3⟩ | ⟨n, q1, n', q2, q3⟩ | ⟨n, q1, q2⟩
          · exact .inl ⟨u, us, by simpa [Trie.at] using q1, q2, fun n h => s2 (q3 h)⟩
          · exact .inr (.inl ⟨n, s2 q1, n', List.mem_append_left _ q2, q3⟩)
          · exact .inr (.inr ⟨n, List.mem_append_left _ q1, q2⟩)
      · exact .inr (.inl ⟨_, List.mem_cons_self, _, hs, hc⟩)

/-- What goes wrong otherwise: a node of the trie and one that was shown have the same digest, or a node has digest 0. -/
def Clashes (ns shown : List PathNode) : Prop := (∃ n ∈ ns, ∃ n' ∈ shown, n.Clash n') ∨ ∃ n ∈ ns ++ shown, n.digest = 0

theorem Clashes.of_bind {leaf D : Fr} {t t' : Trie} {ns ns' : List PathNode} (h : t.Nodes leaf D ns) (h' : t'.Nodes leaf D ns')
    (hne : t ≠ t') : Clashes ns ns' := (trie_bind h h').resolve_left hne

theorem Clashes.of_member {leaf D w a b : Fr} {t : Trie} {ns : List PathNode} (h : t.Nodes leaf D ns) (p : List PathStep)
    (hb : ∀ s ∈ p, s.dom ≠ leaf) (hroot : pathRoot w p = D) (hne : t.at (p.reverse.map PathStep.onRight) ≠ some (.leaf a b)) :
    Clashes ns (⟨w, a, b, leaf⟩ :: pathNodes w p) := by
  rcases trie_path h p hb hroot with ⟨u, us, q1, q2, q3⟩ | ⟨n, q1, n', q2, q3⟩ | ⟨n, q1, q2⟩
  · rcases trie_bind q2 (.leaf w a b) with rfl | ⟨n, e1, n', e2, e3⟩ | ⟨n, e1, e2⟩
    · exact absurd q1 hne
    · rw [List.mem_singleton] at e2
      exact .inl ⟨n, q3 e1, n', e2 ▸ List.mem_cons_self, e3⟩
    · refine .inr ⟨n, ?_, e2⟩
      rcases List.mem_append.mp e1 with e | e
      · exact List.mem_append_left _ (q3 e)
      · rw [List.mem_singleton] at e
        exact List.mem_append_right _ (e ▸ List.mem_cons_self)
  · exact .inl ⟨n, q1, n', List.mem_cons_of_mem _ q2, q3⟩
  · exact .inr ⟨n, List.mem_append_right _ (List.mem_cons_of_mem _ q1), q2⟩

theorem Clashes.of_absent {leaf D : Fr} {t : Trie} {ns : List PathNode} (h : t.Nodes leaf D ns) (p : List PathStep)
    (hb : ∀ s ∈ p, s.dom ≠ leaf) (hroot : pathRoot 0 p = D) (hne : t.at (p.reverse.map PathStep.onRight) ≠ some .empty) :
    Clashes ns (pathNodes 0 p) := by
  rcases trie_path h p hb hroot with ⟨u, us, q1, q2, q3⟩ | ⟨n, q1, n', q2, q3⟩ | ⟨n, q1, q2⟩
  · rcases trie_bind q2 .empty with rfl | ⟨n, e1, n', e2, e3⟩ | ⟨n, e1, e2⟩
    · exact absurd q1 hne
    · cases e2
    · rw [List.append_nil] at e1
      exact .inr ⟨n, List.mem_append_left _ (q3 e1), e2⟩
  · exact .inl ⟨n, q1, n', q2, q3⟩
  · exact .inr ⟨n, List.mem_append_right _ q1, q2⟩

/-- The same, with a collision of the code. -/
def Broken (short : Bool) (ns shown : List PathNode) : Prop :=
  (∃ n ∈ ns, ∃ n' ∈ shown, n.Collide short n') ∨ ∃ n ∈ ns ++ shown, n.digest = 0

theorem Clashes.broken {short : Bool} {ns shown : List PathNode} (h : Clashes ns shown) (hn : ∀ n ∈ ns, n.Right short)
    (hs : ∀ n ∈ shown, n.Right short) : Broken short ns shown :=
  h.imp_left fun ⟨n, h1, n', h2, h3⟩ => ⟨n, h1, n', h2, h3.collide (hn n h1) (hs n' h2)⟩

/-! ### Theorems -/

/-- **C109**, every trie has one root and list of right nodes. -/
theorem C109_root (short : Bool) (leaf : Fr) (t : Trie) (ht : t.Typed leaf) :
    ∃! q : Fr × List PathNode, t.Nodes leaf q.1 q.2 ∧ ∀ n ∈ q.2, n.Right short := by
  have ex : ∀ dom a b : Fr, ∃ D, (⟨D, a, b, dom⟩ : PathNode).Right short := fun dom a b =>
    ⟨Spec.rowsDigest (Spec.onTriples permBn) 0 [(dom, a, b)], (PathNode.right_iff short _).mpr rfl⟩
  have un : ∀ {D D' dom a b : Fr}, (⟨D, a, b, dom⟩ : PathNode).Right short → (⟨D', a, b, dom⟩ : PathNode).Right short → D = D' :=
    fun h h' => ((PathNode.right_iff short _).mp h).trans ((PathNode.right_iff short _).mp h').symm
  induction t with
  | empty =>
    refine ⟨(0, []), ⟨.empty, by simp⟩, ?_⟩
    rintro ⟨D, ns⟩ ⟨h, -⟩
    cases h
    rfl
  | leaf a b =>
    obtain ⟨D, hD⟩ := ex leaf a b
    refine ⟨(D, _), ⟨.leaf D a b, by simpa using hD⟩, ?_⟩
    rintro ⟨D', ns⟩ ⟨h, hr⟩
    replace h : (Trie.leaf a b).Nodes leaf D' ns := h
    cases h
    obtain rfl := un hD (hr _ List.mem_cons_self)
    rfl
  | branch dom l r ihl ihr =>
    obtain ⟨⟨a, ns⟩, ⟨h1, h2⟩, h3⟩ := ihl ht.2.1
    obtain ⟨⟨b, ms⟩, ⟨h4, h5⟩, h6⟩ := ihr ht.2.2
    obtain ⟨D, hD⟩ := ex dom a b
    refine ⟨(D, _), ⟨.branch D dom a b l r ns ms ht.1 h1 h4, fun n hn => ?_⟩, ?_⟩
    · rcases List.mem_cons.mp hn with rfl | hn
      · exact hD
      · rcases List.mem_append.mp hn with hn | hn
        · exact h2 n hn
        · exact h5 n hn
    · rintro ⟨D', ns'⟩ ⟨h, hr⟩
      replace h : (Trie.branch dom l r).Nodes leaf D' ns' := h
      cases h with
      | branch _ _ a' b' _ _ ns' ms' hd hl' hr' =>
        have e1 := h3 (a', ns') ⟨hl', fun n hn => hr n (List.mem_cons_of_mem _ (List.mem_append_left _ hn))⟩
        have e2 := h6 (b', ms') ⟨hr', fun n hn => hr n (List.mem_cons_of_mem _ (List.mem_append_right _ hn))⟩
        obtain ⟨rfl, rfl⟩ := Prod.mk.inj e1
        obtain ⟨rfl, rfl⟩ := Prod.mk.inj e2
        obtain rfl := un hD (hr _ List.mem_cons_self)
        rfl

/-- **C109**, the root binds the trie: two tries with one root are equal, or two of their nodes are a collision, or a node has digest 0. -/
theorem C109_bind (short : Bool) {leaf D : Fr} {t t' : Trie} {ns ns' : List PathNode} (h : t.Nodes leaf D ns) (h' : t'.Nodes leaf D ns')
    (hn : ∀ n ∈ ns, n.Right short) (hn' : ∀ n ∈ ns', n.Right short) :
    t = t' ∨ (∃ n ∈ ns, ∃ n' ∈ ns', n.Collide short n') ∨ ∃ n ∈ ns ++ ns', n.digest = 0 := by
  by_cases hne : t = t'
  · exact .inl hne
  · exact .inr ((Clashes.of_bind h h' hne).broken hn hn')

/-- **C109**, a path of branches from the value `w` to the root of a trie leads, from the root, to a part of the trie with root `w`; or a
node of the trie and one of the path are a collision, or a node of the path has digest 0. -/
theorem C109_path (short : Bool) {leaf D w : Fr} {t : Trie} {ns : List PathNode} (h : t.Nodes leaf D ns) (hn : ∀ n ∈ ns, n.Right short)
    (p : List PathStep) (hp : ∀ n ∈ pathNodes w p, n.Right short) (hb : ∀ s ∈ p, s.dom ≠ leaf) (hroot : pathRoot w p = D) :
    (∃ u us, t.at (p.reverse.map PathStep.onRight) = some u ∧ u.Nodes leaf w us ∧ us ⊆ ns) ∨
      (∃ n ∈ ns, ∃ n' ∈ pathNodes w p, n.Collide short n') ∨ ∃ n ∈ pathNodes w p, n.digest = 0 := by
  rcases trie_path h p hb hroot with h | ⟨n, h1, n', h2, h3⟩ | h
  · exact .inl h
  · exact .inr (.inl ⟨n, h1, n', h2, h3.collide (hn n h1) (hp n' h2)⟩)
  · exact .inr (.inr h)

/-- **C109**, a shown leaf is in the trie. -/
theorem C109_member (short : Bool) {leaf D w a b : Fr} {t : Trie} {ns : List PathNode} (h : t.Nodes leaf D ns)
    (hn : ∀ n ∈ ns, n.Right short) (p : List PathStep) (hp : ∀ n ∈ (⟨w, a, b, leaf⟩ : PathNode) :: pathNodes w p, n.Right short)
    (hb : ∀ s ∈ p, s.dom ≠ leaf) (hroot : pathRoot w p = D) :
    t.at (p.reverse.map PathStep.onRight) = some (.leaf a b) ∨ Broken short ns (⟨w, a, b, leaf⟩ :: pathNodes w p) := by
  by_cases hne : t.at (p.reverse.map PathStep.onRight) = some (.leaf a b)
  · exact .inl hne
  · exact .inr ((Clashes.of_member h p hb hroot hne).broken hn hp)

/-- **C109**, a path from 0 shows that there is nothing. -/
theorem C109_absent (short : Bool) {leaf D : Fr} {t : Trie} {ns : List PathNode} (h : t.Nodes leaf D ns)
    (hn : ∀ n ∈ ns, n.Right short) (p : List PathStep) (hp : ∀ n ∈ pathNodes 0 p, n.Right short)
    (hb : ∀ s ∈ p, s.dom ≠ leaf) (hroot : pathRoot 0 p = D) :
    t.at (p.reverse.map PathStep.onRight) = some .empty ∨ Broken short ns (pathNodes 0 p) := by
  by_cases hne : t.at (p.reverse.map PathStep.onRight) = some .empty
  · exact .inl hne
  · exact .inr ((Clashes.of_absent h p hb hroot hne).broken hn hp)

/-- **C109**, completeness: whatever is in the trie is shown by a path of nodes of the trie. -/
theorem C109_complete {leaf D : Fr} {t : Trie} {ns : List PathNode} (h : t.Nodes leaf D ns) (bs : List Bool) (u : Trie)
    (hu : t.at bs = some u) :
    ∃ w us p, u.Nodes leaf w us ∧ us ⊆ ns ∧ p.reverse.map PathStep.onRight = bs ∧ pathNodes w p ⊆ ns ∧ (∀ s ∈ p, s.dom ≠ leaf) ∧
      pathRoot w p = D := by
  induction bs generalizing t D ns with
  | nil =>
    obtain rfl : t = u := by
      cases t <;> exact Option.some.inj hu
    exact ⟨D, ns, [], h, List.Subset.refl _, rfl, by simp [pathNodes], by simp, rfl⟩
  | cons o bs ih =>
    cases h with
    | empty => cases hu
    | leaf _ a b => cases hu
    | branch _ dom a b l r ns ms hd hl hr =>
      have s1 : ∀ {n}, n ∈ ns → n ∈ (⟨D, a, b, dom⟩ : PathNode) :: (ns ++ ms) := fun h =>
        List.mem_cons_of_mem _ (List.mem_append_left _ h)
      have s2 : ∀ {n}, n ∈ ms → n ∈ (⟨D, a, b, dom⟩ : PathNode) :: (ns ++ ms) := fun h =>
        List.mem_cons_of_mem _ (List.mem_append_right _ h)
      cases o
      · obtain ⟨w, us, p, q1, q2, q3, q4, q5, q6⟩ := ih hl hu
        refine ⟨w, us, p ++ [⟨false, b, dom, D⟩], q1, fun n h => s1 (q2 h), by simp [← q3], fun n h => ?_, fun s h => ?_, ?_⟩
        · rw [pathNodes_append, q6] at h
          rcases List.mem_append.mp h with h | h
          · exact s1 (q4 h)
          · rw [show n = ⟨D, a, b, dom⟩ from List.mem_singleton.mp h]
            exact List.mem_cons_self
        · rcases List.mem_append.mp h with h | h
          · exact q5 s h
          · rw [List.mem_singleton.mp h]
            exact hd
        · rw [pathRoot_append]
          rfl
      · obtain ⟨w, us, p, q1, q2, q3, q4, q5, q6⟩ := ih hr hu
        refine ⟨w, us, p ++ [⟨true, a, dom, D⟩], q1, fun n h => s2 (q2 h), by simp [← q3], fun n h => ?_, fun s h => ?_, ?_⟩
        · rw [pathNodes_append, q6] at h
          rcases List.mem_append.mp h with h | h
          · exact s2 (q4 h)
          · rw [show n = ⟨D, a, b, dom⟩ from List.mem_singleton.mp h]
            exact List.mem_cons_self
        · rcases List.mem_append.mp h with h | h
          · exact q5 s h
          · rw [List.mem_singleton.mp h]
            exact hd
        · rw [pathRoot_append]
          rfl

/-- **C109**, lookups in an accepted table: leaves and paths that are answered, with no node of two zero words, show what is in the trie. -/
theorem C109_table {x : Run Fr} {k : ChipKind} {short : Bool} {L : Layouter Fr} {post : List (Op Fr)} {g : Grid Fr} (short' : Bool)
    (hacc : x.Accepted k short L post g) (hstep : x.step = x.STEP) (hpos : 0 < x.STEP) {leaf D w : Fr} {t : Trie} {ns : List PathNode}
    (h : t.Nodes leaf D ns) (hn : ∀ n ∈ ns, n.Right short') (p : List PathStep)
    (hp : ∀ n ∈ pathNodes w p, Answers x g n.row ∧ ¬ (n.left = 0 ∧ n.right = 0)) (hb : ∀ s ∈ p, s.dom ≠ leaf)
    (hroot : pathRoot w p = D) :
    (∀ a b, Answers x g (⟨w, a, b, leaf⟩ : PathNode).row → ¬ (a = 0 ∧ b = 0) →
      t.at (p.reverse.map PathStep.onRight) = some (.leaf a b) ∨ Broken short' ns (⟨w, a, b, leaf⟩ :: pathNodes w p)) ∧
    (w = 0 → t.at (p.reverse.map PathStep.onRight) = some .empty ∨ Broken short' ns (pathNodes w p)) := by
  have key := C108_right short' hacc hstep hpos
  have hr : ∀ n ∈ pathNodes w p, n.Right short' := fun n hn => key n (hp n hn).1 (hp n hn).2
  constructor
  · intro a b ha h0
    refine C109_member short' h hn p (fun n hn => ?_) hb hroot
    rcases List.mem_cons.mp hn with rfl | hn
    · exact key _ ha h0
    · exact hr n hn
  · rintro rfl
    exact C109_absent short' h hn p hr hb hroot

/-- **C109**, proofs: with the key of the host circuit of C93, a convincing prover that has a leaf and a path to the root of a trie in the
rows of the requests shows that the leaf is in the trie; and every leaf of the trie whose path has no node with two zero words is shown
by a prover. -/
theorem C109_host {k : ChipKind} {ch : Chip Fr 3} (hch : bnChip k = .ok ch) (short short' legacy : Bool) (mode : LoadMode)
    {STEP calcs m kk : ℕ} (hpos : 0 < STEP) (hm : m < calcs) (hkk : kk ≤ 28) (h1 : STEP + 8 ≤ 2 ^ kk)
    (h2 : calcs + 7 ≤ 2 ^ kk) (h3 : k.rows * calcs + 6 ≤ 2 ^ kk) {x : Run Fr}
    (hx : x = hostRun ch short legacy mode STEP .empty calcs) :
    ∃ L, x.load = .ok L ∧ ∃ K,
      keygenWith x.configured.2 [hostLookup] (L.ops ++ hostOps (q := 4) m 0) (2 ^ kk) (omega kk) delta = .ok K ∧
      ∀ (leaf D : Fr) (t : Trie) (ns : List PathNode), t.Nodes leaf D ns → (∀ n ∈ ns, n.Right short') →
        (∀ w a b p, p.length + 1 = m →
          (∀ n ∈ (⟨w, a, b, leaf⟩ : PathNode) :: pathNodes w p, ¬ (n.left = 0 ∧ n.right = 0)) → (∀ s ∈ p, s.dom ≠ leaf) →
          pathRoot w p = D → Opens K kk (⟨w, a, b, leaf⟩ :: pathNodes w p) →
          t.at (p.reverse.map PathStep.onRight) = some (.leaf a b) ∨ Broken short' ns (⟨w, a, b, leaf⟩ :: pathNodes w p)) ∧
        ∀ bs a b, bs.length + 1 = m → t.at bs = some (.leaf a b) → (∀ n ∈ ns, ¬ (n.left = 0 ∧ n.right = 0)) →
          ∃ w p, p.reverse.map PathStep.onRight = bs ∧ pathRoot w p = D ∧ Opens K kk (⟨w, a, b, leaf⟩ :: pathNodes w p) := by
  obtain ⟨L, hL, K, hK, h, -⟩ := C108_host hch short short' legacy mode hpos hm hkk h1 h2 h3 hx
  have key : ∀ (leaf w a b : Fr) (p : List PathStep), (⟨w, a, b, leaf⟩ : PathNode) :: pathNodes w p =
      pathNodes a (⟨false, b, leaf, w⟩ :: p) := fun _ _ _ _ _ => rfl
  refine ⟨L, hL, K, hK, fun leaf D t ns ht hn => ⟨fun w a b p hp h0 hb hroot ho => ?_, fun bs a b hbs hat h0 => ?_⟩⟩
  · refine C109_member short' ht hn p ?_ hb hroot
    rw [key] at ho h0 ⊢
    exact (h a _ (by rw [List.length_cons, hp]) h0).mp ho
  · obtain ⟨w, us, p, q1, q2, q3, q4, q5, q6⟩ := C109_complete ht bs _ hat
    cases q1
    have hsub : ∀ n ∈ (⟨w, a, b, leaf⟩ : PathNode) :: pathNodes w p, n ∈ ns := by
      intro n hn
      rcases List.mem_cons.mp hn with rfl | hn
      · exact q2 List.mem_cons_self
      · exact q4 hn
    refine ⟨w, p, q3, q6, ?_⟩
    have hl : p.length = bs.length := by
      rw [← q3, List.length_map, List.length_reverse]
    rw [key] at hsub ⊢
    exact (h a _ (by rw [List.length_cons, hl, hbs]) fun n hn => h0 n (hsub n hn)).mpr fun n hm => hn n (hsub n hm)

/-! ### Examples -/

/-- A trie with two leaves on the left and nothing on the right. -/
def sampleTrie : Trie := .branch 2 (.branch 3 (.leaf 5 6) (.leaf 7 8)) .empty

/-- It has a root, and a path to its second leaf, all right and without a node of two zero words below the root of the leaves. -/
example : ∃ D ns, sampleTrie.Nodes 1 D ns ∧ (∀ n ∈ ns, n.Right true) ∧ sampleTrie.at [false, true] = some (.leaf 7 8) ∧
    sampleTrie.at [true] = some .empty ∧ (∃ w us p, (Trie.leaf 7 8).Nodes 1 w us ∧ p.reverse.map PathStep.onRight = [false, true] ∧
      (∀ n ∈ pathNodes w p, n.Right true) ∧ (∀ s ∈ p, s.dom ≠ 1) ∧ pathRoot w p = D) ∧
    ∃ p, p.reverse.map PathStep.onRight = [true] ∧ (∀ n ∈ pathNodes 0 p, n.Right true) ∧ (∀ s ∈ p, s.dom ≠ 1) ∧ pathRoot 0 p = D := by
  have e2 : (2 : Fr) ≠ 1 := by decide +kernel
  have e3 : (3 : Fr) ≠ 1 := by decide +kernel
  obtain ⟨⟨D, ns⟩, ⟨h1, h2⟩, -⟩ := C109_root true 1 sampleTrie ⟨e2, ⟨e3, trivial, trivial⟩, trivial⟩
  obtain ⟨w, us, p, q1, -, q3, q4, q5, q6⟩ := C109_complete h1 [false, true] (.leaf 7 8) rfl
  obtain ⟨w', us', p', q1', -, q3', q4', q5', q6'⟩ := C109_complete h1 [true] .empty rfl
  cases q1'
  exact ⟨D, ns, h1, h2, rfl, rfl, ⟨w, us, p, q1, q3, fun n hn => h2 n (q4 hn), q5, q6⟩, p', q3', fun n hn => h2 n (q4' hn), q5', q6'⟩

/-- Without a collision or a digest 0, no other leaf can be shown in its place. -/
example (D w a b : Fr) (ns : List PathNode) (h : sampleTrie.Nodes 1 D ns) (hn : ∀ n ∈ ns, n.Right true) (s s' : PathStep)
    (h1 : s.onRight = true) (h2 : s'.onRight = false) (hs : s.dom ≠ 1) (hs' : s'.dom ≠ 1)
    (hp : ∀ n ∈ (⟨w, a, b, 1⟩ : PathNode) :: pathNodes w [s, s'], n.Right true) (hroot : pathRoot w [s, s'] = D)
    (hbroken : ¬ Broken true ns (⟨w, a, b, 1⟩ :: pathNodes w [s, s'])) : a = 7 ∧ b = 8 := by
  have := (C109_member true h hn [s, s'] hp (by simp [hs, hs']) hroot).resolve_right hbroken
  simp only [List.reverse_cons, List.reverse_nil, List.nil_append, List.singleton_append, List.map_cons, List.map_nil, h1, h2] at this
  injection this with this
  injection this with e1 e2
  exact ⟨e1.symm, e2.symm⟩

end Props
