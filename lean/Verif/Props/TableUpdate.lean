import Verif.Props.IdealTrie

/-!
# Changes of a trie: C111

A circuit that proves a change of a trie shows two paths with the same sides, siblings and domains: one from the old part to the old root,
one from the new part to the new root. What does this show about a trie that is known by its root only, also for many changes in a row?
-/

set_option linter.unusedVariables false
set_option linter.unusedSectionVars false

namespace Props
open Halo2 Circuit Circuit.Table Base Base.Bn256 Collide Ideal Game Simulate

/-! ### Specification -/

/-- The trie with the part at a place replaced. -/
def Trie.set (u : Trie) : Trie → List Bool → Trie
  | _, [] => u
  | .branch d l r, b :: bs => if b then .branch d l (u.set r bs) else .branch d (u.set l bs) r
  | t, _ :: _ => t

/-- What two paths of a change have in common. -/
def PathStep.frame (s : PathStep) : Bool × Fr × Fr := (s.onRight, s.sibling, s.dom)

/-- A change as it is shown: the old and the new part with their values and nodes, and the two paths. -/
structure Change where
  old : Trie
  new : Trie
  value : Fr
  value' : Fr
  nodes : List PathNode
  nodes' : List PathNode
  path : List PathStep
  path' : List PathStep

/-- The place of the change. -/
def Change.place (c : Change) : List Bool := c.path.reverse.map PathStep.onRight

/-- All nodes that are shown. -/
def Change.shown (c : Change) : List PathNode := c.nodes ++ c.nodes' ++ pathNodes c.value c.path ++ pathNodes c.value' c.path'

/-- The change goes from root `D` to root `D'`. -/
structure Change.Leads (c : Change) (leaf D D' : Fr) : Prop where
  old : c.old.Nodes leaf c.value c.nodes
  new : c.new.Nodes leaf c.value' c.nodes'
  branches : ∀ s ∈ c.path, s.dom ≠ leaf
  frame : c.path'.map PathStep.frame = c.path.map PathStep.frame
  root : pathRoot c.value c.path = D
  root' : pathRoot c.value' c.path' = D'

/-- Changes in a row. -/
inductive Chain (leaf : Fr) : Fr → List Change → Fr → Prop
  | nil (D : Fr) : Chain leaf D [] D
  | cons {D E D' : Fr} {c : Change} {cs : List Change} (h : c.Leads leaf D E) (hs : Chain leaf E cs D') : Chain leaf D (c :: cs) D'

/-- What the changes should do: each finds the old part at its place and puts the new one there. -/
inductive Changes : Trie → List Change → Trie → Prop
  | nil (t : Trie) : Changes t [] t
  | cons {t t' : Trie} {c : Change} {cs : List Change} (h : t.at c.place = some c.old) (hs : Changes (c.new.set t c.place) cs t') :
    Changes t (c :: cs) t'

/-! ### Lemmas -/

theorem trie_update {leaf D w : Fr} {t : Trie} {ns : List PathNode} (h : t.Nodes leaf D ns) (p : List PathStep)
    (hb : ∀ s ∈ p, s.dom ≠ leaf) (hroot : pathRoot w p = D) {u : Trie} {w' : Fr} {us : List PathNode} (hu : u.Nodes leaf w' us)
    (p' : List PathStep) (hf : p'.map PathStep.frame = p.map PathStep.frame) :
    (∃ ms, (u.set t (p.reverse.map PathStep.onRight)).Nodes leaf (pathRoot w' p') ms ∧ ms ⊆ ns ++ us ++ pathNodes w' p') ∨
      (∃ n ∈ ns, ∃ n' ∈ pathNodes w p, n.Clash n') ∨ ∃ n ∈ pathNodes w p, n.digest = 0 := by
  induction p using List.reverseRecOn generalizing D t ns p' with
  | nil =>
    obtain rfl : p' = [] := by simpa using hf
    refine .inl ⟨us, ?_, fun n hn => by simp [hn]⟩
    have : u.set t [] = u := by cases t <;> rfl
    change (u.set t []).Nodes leaf w' us
    rwa [this]
  | append_singleton p s ih =>
    obtain ⟨q, s', rfl⟩ : ∃ q s', p' = q ++ [s'] := by
      rcases List.eq_nil_or_concat p' with rfl | ⟨q, s', rfl⟩
      · simp at hf
      · exact ⟨q, s', by simp⟩
    rw [List.map_append, List.map_append] at hf
    obtain ⟨hf1, hf2⟩ := List.append_inj' hf (by simp)
    simp only [List.map_cons, List.map_nil, List.cons.injEq, and_true, PathStep.frame, Prod.mk.injEq] at hf2
    obtain ⟨f1, f2, f3⟩ := hf2
    rw [pathRoot_append] at hroot
    rw [pathNodes_append, pathRoot_append, pathNodes_append]
    have hs : s.node (pathRoot w p) ∈ pathNodes w p ++ pathNodes (pathRoot w p) [s] := List.mem_append_right _ List.mem_cons_self
    have hD : (s.node (pathRoot w p)).digest = D := by
      rw [← hroot]
      unfold PathStep.node
      split <;> rfl
    have hds : (s.node (pathRoot w p)).dom = s.dom := by
      unfold PathStep.node
      split <;> rfl
    have hdom : (s.node (pathRoot w p)).dom ≠ leaf := by
      rw [hds]
      exact hb s (by simp)
    cases h with
    | empty => exact .inr (.inr ⟨_, hs, hD⟩)
    | leaf _ a b =>
      rcases PathNode.clash (n := ⟨D, a, b, leaf⟩) hD.symm with ⟨h1, -, -⟩ | hc
      · exact absurd h1.symm hdom
      · exact .inr (.inl ⟨_, List.mem_cons_self, _, hs, hc⟩)
    | branch _ dom a b l r ns ms hd hl hr =>
      rcases PathNode.clash (n := ⟨D, a, b, dom⟩) hD.symm with ⟨h1, h2, h3⟩ | hc
      · have s1 : ∀ {n}, n ∈ ns → n ∈ (⟨D, a, b, dom⟩ : PathNode) :: (ns ++ ms) := fun h =>
          List.mem_cons_of_mem _ (List.mem_append_left _ h)
        have s2 : ∀ {n}, n ∈ ms → n ∈ (⟨D, a, b, dom⟩ : PathNode) :: (ns ++ ms) := fun h =>
          List.mem_cons_of_mem _ (List.mem_append_right _ h)
        have hb0 : ∀ s ∈ p, s.dom ≠ leaf := fun s h => hb s (List.mem_append_left _ h)
        have h1 : dom = s.dom := h1.trans hds
        rw [List.reverse_append, List.reverse_singleton, List.singleton_append, List.map_cons]
        -- where the nodes of the new part come from
        have sub : ∀ {xs ys : List PathNode}, (∀ {n}, n ∈ xs → n ∈ (⟨D, a, b, dom⟩ : PathNode) :: (ns ++ ms)) →
            ys ⊆ xs ++ us ++ pathNodes w' q →
            ys ⊆ ((⟨D, a, b, dom⟩ : PathNode) :: (ns ++ ms)) ++ us ++ (pathNodes w' q ++ pathNodes (pathRoot w' q) [s']) := by
          intro xs ys h1 h2 n hn
          rcases List.mem_append.mp (h2 hn) with h | h
          · rcases List.mem_append.mp h with h | h
            · exact List.mem_append_left _ (List.mem_append_left _ (h1 h))
            · exact List.mem_append_left _ (List.mem_append_right _ h)
          · exact List.mem_append_right _ (List.mem_append_left _ h)
        have new : s'.node (pathRoot w' q) ∈
            ((⟨D, a, b, dom⟩ : PathNode) :: (ns ++ ms)) ++ us ++ (pathNodes w' q ++ pathNodes (pathRoot w' q) [s']) :=
          List.mem_append_right _ (List.mem_append_right _ List.mem_cons_self)
        cases ho : s.onRight
        · have e : pathRoot w p = a := by
            have : (s.node (pathRoot w p)).left = pathRoot w p := by simp [PathStep.node, ho]
            rw [← this]
            exact h2.symm
          have eb : b = s'.sibling := by
            have : (s.node (pathRoot w p)).right = s.sibling := by simp [PathStep.node, ho]
            rw [f2, ← this]
            exact h3
          have en : s'.node (pathRoot w' q) = ⟨s'.up, pathRoot w' q, b, dom⟩ := by
            simp [PathStep.node, f1, ho, eb, h1, f3]
          rcases ih hl hb0 e q hf1 with ⟨ks, q1, q2⟩ | ⟨n, q1, n', q2, q3⟩ | ⟨n, q1, q2⟩
          · refine .inl ⟨⟨s'.up, pathRoot w' q, b, dom⟩ :: (ks ++ ms), ?_, fun n hn => ?_⟩
            · exact .branch s'.up dom (pathRoot w' q) b _ r ks ms hd q1 hr
            · rcases List.mem_cons.mp hn with rfl | hn
              · rw [← en]
                exact new
              · rcases List.mem_append.mp hn with hn | hn
                · exact sub s1 q2 hn
                · exact List.mem_append_left _ (List.mem_append_left _ (s2 hn))
          · exact .inr (.inl ⟨n, s1 q1, n', List.mem_append_left _ q2, q3⟩)
          · exact .inr (.inr ⟨n, List.mem_append_left _ q1, q2⟩)
        · have e : pathRoot w p = b := by
            have : (s.node (pathRoot w p)).right = pathRoot w p := by simp [PathStep.node, ho]
            rw [← this]
            exact h3.symm
          have ea : a = s'.sibling := by
            have : (s.node (pathRoot w p)).left = s.sibling := by simp [PathStep.node, ho]
            rw [f2, ← this]
            exact h2
          have en : s'.node (pathRoot w' q) = ⟨s'.up, a, pathRoot w' q, dom⟩ := by
            simp [PathStep.node, f1, ho, ea, h1, f3]
          rcases ih hr hb0 e q hf1 with ⟨ks, q1, q2⟩ | ⟨n, q1, n', q2, q3⟩ | ⟨n, q1, q2⟩
          · refine .inl ⟨⟨s'.up, a, pathRoot w' q, dom⟩ :: (ns ++ ks), ?_, fun n hn => ?_⟩
            · exact .branch s'.up dom a (pathRoot w' q) l _ ns ks hd hl q1
            · rcases List.mem_cons.mp hn with rfl | hn
              · rw [← en]
                exact new
              · rcases List.mem_append.mp hn with hn | hn
                · exact List.mem_append_left _ (List.mem_append_left _ (s1 hn))
                · exact sub s2 q2 hn
          · exact .inr (.inl ⟨n, s2 q1, n', List.mem_append_left _ q2, q3⟩)
          · exact .inr (.inr ⟨n, List.mem_append_left _ q1, q2⟩)
      · exact .inr (.inl ⟨_, List.mem_cons_self, _, hs, hc⟩)

/-- One change. -/
theorem change_or_clash {leaf D D' : Fr} {t : Trie} {ns : List PathNode} (h : t.Nodes leaf D ns) {c : Change} (hc : c.Leads leaf D D') :
    (t.at c.place = some c.old ∧ ∃ ms, (c.new.set t c.place).Nodes leaf D' ms ∧ ms ⊆ ns ++ c.shown) ∨
      Clashes (ns ++ c.shown) (ns ++ c.shown) := by
  have sp : ∀ {n}, n ∈ pathNodes c.value c.path → n ∈ ns ++ c.shown := fun h => by simp [Change.shown, h]
  have so : ∀ {n}, n ∈ c.nodes → n ∈ ns ++ c.shown := fun h => by simp [Change.shown, h]
  have sn : ∀ {n}, n ∈ ns → n ∈ ns ++ c.shown := fun h => List.mem_append_left _ h
  rcases trie_update h c.path hc.branches hc.root hc.new c.path' hc.frame with ⟨ms, h1, h2⟩ | ⟨n, q1, n', q2, q3⟩ | ⟨n, q1, q2⟩
  · rw [hc.root'] at h1
    rcases trie_path h c.path hc.branches hc.root with ⟨u, us, e1, e2, e3⟩ | ⟨n, q1, n', q2, q3⟩ | ⟨n, q1, q2⟩
    · rcases trie_bind e2 hc.old with rfl | ⟨n, q1, n', q2, q3⟩ | ⟨n, q1, q2⟩
      · refine .inl ⟨e1, ms, h1, fun n hn => ?_⟩
        have := h2 hn
        simp only [List.mem_append, Change.shown] at this ⊢
        tauto
      · exact .inr (.inl ⟨n, sn (e3 q1), n', so q2, q3⟩)
      · refine .inr (.inr ⟨n, List.mem_append_left _ ?_, q2⟩)
        rcases List.mem_append.mp q1 with q | q
        · exact sn (e3 q)
        · exact so q
    · exact .inr (.inl ⟨n, sn q1, n', sp q2, q3⟩)
    · exact .inr (.inr ⟨n, List.mem_append_left _ (sp q1), q2⟩)
  · exact .inr (.inl ⟨n, sn q1, n', sp q2, q3⟩)
  · exact .inr (.inr ⟨n, List.mem_append_left _ (sp q1), q2⟩)

theorem Clashes.mono {ns ms : List PathNode} (h : Clashes ns ns) (hs : ns ⊆ ms) : Clashes ms ms := by
  rcases h with ⟨n, h1, n', h2, h3⟩ | ⟨n, h1, h2⟩
  · exact .inl ⟨n, hs h1, n', hs h2, h3⟩
  · refine .inr ⟨n, List.mem_append_left _ ?_, h2⟩
    rcases List.mem_append.mp h1 with h | h <;> exact hs h

/-- Changes in a row. -/
theorem chain_or_clash {leaf D D' : Fr} {cs : List Change} (hc : Chain leaf D cs D') {t : Trie} {ns : List PathNode}
    (h : t.Nodes leaf D ns) :
    (∃ t' ms, Changes t cs t' ∧ t'.Nodes leaf D' ms ∧ ms ⊆ ns ++ cs.flatMap Change.shown) ∨
      Clashes (ns ++ cs.flatMap Change.shown) (ns ++ cs.flatMap Change.shown) := by
  induction hc generalizing t ns with
  | nil D => exact .inl ⟨t, ns, .nil t, h, by simp⟩
  | cons hc hs ih =>
    rename_i D E D' c cs
    have s1 : ns ++ c.shown ⊆ ns ++ (c :: cs).flatMap Change.shown := by
      intro n hn
      simp only [List.flatMap_cons, List.mem_append] at hn ⊢
      tauto
    rcases change_or_clash h hc with ⟨e1, ms, e2, e3⟩ | hcl
    · have s2 : ms ++ cs.flatMap Change.shown ⊆ ns ++ (c :: cs).flatMap Change.shown := by
        intro n hn
        rcases List.mem_append.mp hn with hn | hn
        · exact s1 (e3 hn)
        · simp only [List.flatMap_cons, List.mem_append]
          tauto
      rcases ih e2 with ⟨t', ks, q1, q2, q3⟩ | hcl
      · exact .inl ⟨t', ks, .cons e1 q1, q2, fun n hn => s2 (q3 hn)⟩
      · exact .inr (hcl.mono s2)
    · exact .inr (hcl.mono s1)

/-! ### Theorems -/

/-- **C111.** Changes that are shown are changes of the trie: from a trie with the first root they lead to one with the last root; else two
of the nodes are a collision, or one has digest 0. -/
theorem C111_changes (short : Bool) {leaf D D' : Fr} {cs : List Change} (hc : Chain leaf D cs D') {t : Trie} {ns : List PathNode}
    (h : t.Nodes leaf D ns) (hn : ∀ n ∈ ns ++ cs.flatMap Change.shown, n.Right short) :
    (∃ t' ms, Changes t cs t' ∧ t'.Nodes leaf D' ms ∧ ∀ n ∈ ms, n.Right short) ∨
      Broken short (ns ++ cs.flatMap Change.shown) (ns ++ cs.flatMap Change.shown) := by
  rcases chain_or_clash hc h with ⟨t', ms, h1, h2, h3⟩ | h
  · exact .inl ⟨t', ms, h1, h2, fun n hm => hn n (h3 hm)⟩
  · exact .inr (h.broken hn hn)

/-- **C111**, what changes do is determined. -/
theorem C111_unique {t t' t'' : Trie} {cs : List Change} (h : Changes t cs t') (h' : Changes t cs t'') : t' = t'' := by
  induction h with
  | nil t => cases h'; rfl
  | cons h hs ih =>
    cases h' with
    | cons _ hs' => exact ih hs'

/-- **C111**, after a change the new part is at its place, and all places that do not pass it or lie below it are as before. -/
theorem C111_set (u t v : Trie) (bs : List Bool) (h : t.at bs = some v) :
    (u.set t bs).at bs = some u ∧ ∀ bs', ¬ bs <+: bs' → ¬ bs' <+: bs → (u.set t bs).at bs' = t.at bs' := by
  induction bs generalizing t with
  | nil => exact ⟨by cases t <;> cases u <;> rfl, fun bs' h1 => absurd (List.nil_prefix) h1⟩
  | cons b bs ih =>
    cases t with
    | empty => cases h
    | leaf x y => cases h
    | branch d l r =>
      cases b
      · obtain ⟨h1, h2⟩ := ih l h
        refine ⟨h1, fun bs' h3 h4 => ?_⟩
        cases bs' with
        | nil => exact absurd List.nil_prefix h4
        | cons b' bs' =>
          cases b'
          · refine h2 bs' (fun h => h3 ?_) fun h => h4 ?_
            · rw [List.cons_prefix_cons]; exact ⟨rfl, h⟩
            · rw [List.cons_prefix_cons]; exact ⟨rfl, h⟩
          · rfl
      · obtain ⟨h1, h2⟩ := ih r h
        refine ⟨h1, fun bs' h3 h4 => ?_⟩
        cases bs' with
        | nil => exact absurd List.nil_prefix h4
        | cons b' bs' =>
          cases b'
          · rfl
          · refine h2 bs' (fun h => h3 ?_) fun h => h4 ?_
            · rw [List.cons_prefix_cons]; exact ⟨rfl, h⟩
            · rw [List.cons_prefix_cons]; exact ⟨rfl, h⟩

/-- **C111**, completeness: every change of a trie can be shown, with right nodes, and leads to the root of the new trie. -/
theorem C111_complete (short : Bool) {leaf D : Fr} {t old new : Trie} {ns us : List PathNode} {w' : Fr} (h : t.Nodes leaf D ns)
    (hn : ∀ n ∈ ns, n.Right short) (bs : List Bool) (hat : t.at bs = some old) (hnew : new.Nodes leaf w' us) (hu : ∀ n ∈ us, n.Right short) :
    ∃ (c : Change) (D' : Fr) (ms : List PathNode), c.place = bs ∧ c.old = old ∧ c.new = new ∧ c.Leads leaf D D' ∧
      (∀ n ∈ c.shown, n.Right short) ∧ (new.set t bs).Nodes leaf D' ms ∧ ∀ n ∈ ms, n.Right short := by
  have ex : ∀ dom a b : Fr, ∃ D, (⟨D, a, b, dom⟩ : PathNode).Right short := fun dom a b =>
    ⟨Spec.rowsDigest (Spec.onTriples permBn) 0 [(dom, a, b)], (PathNode.right_iff short _).mpr rfl⟩
  have key : ∀ (bs : List Bool) (t : Trie) (D : Fr) (ns : List PathNode), t.Nodes leaf D ns → (∀ n ∈ ns, n.Right short) →
      t.at bs = some old → ∃ (w : Fr) (os : List PathNode) (p p' : List PathStep) (ms : List PathNode), old.Nodes leaf w os ∧
        (∀ n ∈ os, n.Right short) ∧ p.reverse.map PathStep.onRight = bs ∧ (∀ n ∈ pathNodes w p, n.Right short) ∧
        (∀ s ∈ p, s.dom ≠ leaf) ∧ pathRoot w p = D ∧ p'.map PathStep.frame = p.map PathStep.frame ∧
        (∀ n ∈ pathNodes w' p', n.Right short) ∧ (new.set t bs).Nodes leaf (pathRoot w' p') ms ∧ ∀ n ∈ ms, n.Right short := by
    intro bs
    induction bs with
    | nil =>
      intro t D ns h hn hat
      obtain rfl : t = old := by
        cases t <;> exact Option.some.inj hat
      have e : new.set t [] = new := by cases t <;> rfl
      exact ⟨D, ns, [], [], us, h, hn, rfl, by simp [pathNodes], by simp, rfl, rfl, by simp [pathNodes], by rw [e]; exact hnew, hu⟩
    | cons o bs ih =>
      intro t D ns h hn hat
      cases h with
      | empty => cases hat
      | leaf _ a b => cases hat
      | branch _ dom a b l r ns ms hd hl hr =>
        have s1 : ∀ n ∈ ns, n.Right short := fun n h => hn n (List.mem_cons_of_mem _ (List.mem_append_left _ h))
        have s2 : ∀ n ∈ ms, n.Right short := fun n h => hn n (List.mem_cons_of_mem _ (List.mem_append_right _ h))
        have s0 : (⟨D, a, b, dom⟩ : PathNode).Right short := hn _ List.mem_cons_self
        cases o
        · obtain ⟨w, os, p, p', ks, q1, q2, q3, q4, q5, q6, q7, q8, q9, q10⟩ := ih l a ns hl s1 hat
          obtain ⟨E, hE⟩ := ex dom (pathRoot w' p') b
          refine ⟨w, os, p ++ [⟨false, b, dom, D⟩], p' ++ [⟨false, b, dom, E⟩], ⟨E, pathRoot w' p', b, dom⟩ :: (ks ++ ms), q1, q2,
            by simp [← q3], fun n hm => ?_, fun s hm => ?_, by rw [pathRoot_append]; rfl, by rw [List.map_append, List.map_append, q7]; rfl,
            fun n hm => ?_, ?_, fun n hm => ?_⟩
          · rw [pathNodes_append, q6] at hm
            rcases List.mem_append.mp hm with hm | hm
            · exact q4 n hm
            · rw [show n = ⟨D, a, b, dom⟩ from List.mem_singleton.mp hm]
              exact s0
          · rcases List.mem_append.mp hm with hm | hm
            · exact q5 s hm
            · rw [List.mem_singleton.mp hm]
              exact hd
          · rw [pathNodes_append] at hm
            rcases List.mem_append.mp hm with hm | hm
            · exact q8 n hm
            · rw [show n = ⟨E, pathRoot w' p', b, dom⟩ from List.mem_singleton.mp hm]
              exact hE
          · rw [pathRoot_append]
            exact .branch E dom (pathRoot w' p') b _ r ks ms hd q9 hr
          · rcases List.mem_cons.mp hm with rfl | hm
            · exact hE
            · rcases List.mem_append.mp hm with hm | hm
              · exact q10 n hm
              · exact s2 n hm
        · obtain ⟨w, os, p, p', ks, q1, q2, q3, q4, q5, q6, q7, q8, q9, q10⟩ := ih r b ms hr s2 hat
          obtain ⟨E, hE⟩ := ex dom a (pathRoot w' p')
          refine ⟨w, os, p ++ [⟨true, a, dom, D⟩], p' ++ [⟨true, a, dom, E⟩], ⟨E, a, pathRoot w' p', dom⟩ :: (ns ++ ks), q1, q2,
            by simp [← q3], fun n hm => ?_, fun s hm => ?_, by rw [pathRoot_append]; rfl, by rw [List.map_append, List.map_append, q7]; rfl,
            fun n hm => ?_, ?_, fun n hm => ?_⟩
          · rw [pathNodes_append, q6] at hm
            rcases List.mem_append.mp hm with hm | hm
            · exact q4 n hm
            · rw [show n = ⟨D, a, b, dom⟩ from List.mem_singleton.mp hm]
              exact s0
          · rcases List.mem_append.mp hm with hm | hm
            · exact q5 s hm
            · rw [List.mem_singleton.mp hm]
              exact hd
          · rw [pathNodes_append] at hm
            rcases List.mem_append.mp hm with hm | hm
            · exact q8 n hm
            · rw [show n = ⟨E, a, pathRoot w' p', dom⟩ from List.mem_singleton.mp hm]
              exact hE
          · rw [pathRoot_append]
            exact .branch E dom a (pathRoot w' p') l _ ns ks hd hl q9
          · rcases List.mem_cons.mp hm with rfl | hm
            · exact hE
            · rcases List.mem_append.mp hm with hm | hm
              · exact s1 n hm
              · exact q10 n hm
  obtain ⟨w, os, p, p', ms, q1, q2, q3, q4, q5, q6, q7, q8, q9, q10⟩ := key bs t D ns h hn hat
  refine ⟨⟨old, new, w, w', os, us, p, p'⟩, pathRoot w' p', ms, q3, rfl, rfl, ⟨q1, hnew, q5, q7, q6, rfl⟩, fun n hm => ?_, q9, q10⟩
  simp only [Change.shown, List.mem_append] at hm
  rcases hm with ((hm | hm) | hm) | hm
  · exact q2 n hm
  · exact hu n hm
  · exact q4 n hm
  · exact q8 n hm

/-- **C111**, lookups in an accepted table. -/
theorem C111_table {x : Run Fr} {k : ChipKind} {short : Bool} {L : Layouter Fr} {post : List (Op Fr)} {g : Grid Fr} (short' : Bool)
    (hacc : x.Accepted k short L post g) (hstep : x.step = x.STEP) (hpos : 0 < x.STEP) {leaf D D' : Fr} {cs : List Change}
    (hc : Chain leaf D cs D') (hs : ∀ n ∈ cs.flatMap Change.shown, Answers x g n.row ∧ ¬ (n.left = 0 ∧ n.right = 0))
    {t : Trie} {ns : List PathNode} (h : t.Nodes leaf D ns) (hn : ∀ n ∈ ns, n.Right short') :
    (∃ t' ms, Changes t cs t' ∧ t'.Nodes leaf D' ms ∧ ∀ n ∈ ms, n.Right short') ∨
      Broken short' (ns ++ cs.flatMap Change.shown) (ns ++ cs.flatMap Change.shown) := by
  refine C111_changes short' hc h fun n hm => ?_
  rcases List.mem_append.mp hm with hm | hm
  · exact hn n hm
  · exact C108_right short' hacc hstep hpos n (hs n hm).1 (hs n hm).2

/-- **C111**, proofs: a prover that convinces the verifier of a circuit which looks up all nodes of a chain of changes, none with two zero
words. -/
theorem C111_prover {x : Run Fr} {k : ChipKind} {short : Bool} (short' : Bool) (hbn : x.IsBn k short) (hx : x.Legal)
    (hstep : x.step = x.STEP) (hpos : 0 < x.STEP) {L' : Layouter Fr} (hL : x.Loads L') {post : List (Op Fr)} {cs : CS Fr}
    {ws : List (Wide Fr)} (hgates : ∀ p ∈ x.newGates, p ∈ cs.gates) (hlookups : ∀ l ∈ x.newLookups, l ∈ cs.lookups)
    (quietFixed : ∀ o ∈ x.before.ops ++ post, ∀ c r v, o.FixedWrite c r v → ¬ x.FixedCol c)
    (quietSel : ∀ c r, Op.selector c r ∈ x.before.ops ++ post → ¬ x.Sel c) {n : ℕ} {ω δ : Fr} {K : Key Fr}
    (hK : keygenWith cs ws (L'.ops ++ post) n ω δ = .ok K) (hω : IsPrimitiveRoot ω n) (hδ : DistinctNames cs n ω δ)
    {P : Prover Fr} (hP : P.Short n) (hlt : K.slack * Base.Bn256.r ^ 4 < Nat.card {c // P.Convinces K c})
    {q : Expr Fr} {es : Fin 6 → Expr Fr} (hw : tableLookup x.qEnable x.hashTable q es ∈ ws) {g : Grid Fr} (hg : g = K.grid P.advice)
    {leaf D D' : Fr} {changes : List Change} (hc : Chain leaf D changes D')
    (hs : ∀ m ∈ changes.flatMap Change.shown, (∃ row < K.usable, q.eval g row = 1 ∧ ∀ i, (es i).eval g row = m.row i) ∧
      ¬ (m.left = 0 ∧ m.right = 0))
    {t : Trie} {ns : List PathNode} (h : t.Nodes leaf D ns) (hn : ∀ n ∈ ns, n.Right short') :
    (∃ t' ms, Changes t changes t' ∧ t'.Nodes leaf D' ms ∧ ∀ n ∈ ms, n.Right short') ∨
      Broken short' (ns ++ changes.flatMap Change.shown) (ns ++ changes.flatMap Change.shown) := by
  subst hg
  obtain ⟨hacc, hans⟩ := C92_answers hbn hx hL hgates hlookups quietFixed quietSel hK hω hδ hP hlt hw
  refine C111_table short' hacc hstep hpos hc (fun m hm => ?_) h hn
  obtain ⟨⟨row, h1, h2, h3⟩, h4⟩ := hs m hm
  refine ⟨?_, h4⟩
  have := hans row h1 h2
  rwa [show (fun i => (es i).eval (K.grid P.advice) row) = m.row from funext h3] at this

/-- The adversary has a trie and changes of it that lead to another root than they should. -/
def FalseChange {len : ℕ} {domains : Finset Fr} (leaf : Fr) (τ : Seen len domains) : Prop :=
  ∃ (t : Trie) (D D' : Fr) (ns : List PathNode) (cs : List Change), t.Nodes leaf D ns ∧ Chain leaf D cs D' ∧
    (∀ n ∈ ns ++ cs.flatMap Change.shown, n.Called τ) ∧
    ¬ ∃ t' ms, Changes t cs t' ∧ t'.Nodes leaf D' ms ∧ ∀ n ∈ ms, n.Called τ

/-- **C111**, with a random permutation false changes are hard to find. -/
theorem C111_ideal (legacy : Bool) {len : ℕ} (hl : len < 2 ^ 64) {domains : Finset Fr}
    (hd : ∀ l, 1 ≤ l → l ≤ len → ((l * if legacy then 1 else 2 ^ 64 : ℕ) : Fr) ∉ domains) (leaf : Fr) (A : Distinguisher len domains)
    (N σ : ℕ) (hσ : ∀ (f : ValidCall len domains → Fr) (coins : ℕ → State Fr 3),
      blocks (simulated (validCalls legacy len hl domains hd) A f coins N) ≤ σ) :
    frequency (fun π => FalseChange leaf (withCode legacy A N π)) ≤
      ((N * N + N + (N + σ) * (N + σ + (len + domains.card)) : ℕ) : ℚ) / (r : ℕ) := by
  refine (frequency_mono fun π h => ?_).trans (unlucky_le legacy hl hd A N σ hσ)
  obtain ⟨t, D, D', ns, cs, h1, h2, h3, h4⟩ := h
  rcases chain_or_clash h2 h1 with ⟨t', ms, e1, e2, e3⟩ | h
  · exact absurd ⟨t', ms, e1, e2, fun n hm => h3 n (e3 hm)⟩ h4
  · exact h.unlucky fun n hm => h3 n (by
      rcases List.mem_append.mp hm with hm | hm <;> exact hm)

/-! ### Examples -/

/-- In the trie of C109, the second leaf is replaced and then a leaf is put where nothing was. -/
example : ∃ (D : Fr) (ns : List PathNode) (c c' : Change) (D' : Fr), sampleTrie.Nodes 1 D ns ∧ Chain 1 D [c, c'] D' ∧
    (∀ n ∈ ns ++ [c, c'].flatMap Change.shown, n.Right true) ∧
    Changes sampleTrie [c, c'] (.branch 2 (.branch 3 (.leaf 5 6) (.leaf 9 9)) (.leaf 10 11)) := by
  have e2 : (2 : Fr) ≠ 1 := by decide +kernel
  have e3 : (3 : Fr) ≠ 1 := by decide +kernel
  obtain ⟨⟨D, ns⟩, ⟨h1, h2⟩, -⟩ := C109_root true 1 sampleTrie ⟨e2, ⟨e3, trivial, trivial⟩, trivial⟩
  obtain ⟨⟨w, us⟩, ⟨h3, h4⟩, -⟩ := C109_root true 1 (.leaf 9 9) trivial
  obtain ⟨⟨v, vs⟩, ⟨h5, h6⟩, -⟩ := C109_root true 1 (.leaf 10 11) trivial
  obtain ⟨c, D₁, ms, q1, q2, q3, q4, q5, h7, h8⟩ := C111_complete true h1 h2 [false, true] (old := .leaf 7 8) rfl h3 h4
  obtain ⟨c', D₂, -, q1', q2', q3', q4', q5', -, -⟩ := C111_complete true h7 h8 [true] (old := .empty) rfl h5 h6
  refine ⟨D, ns, c, c', D₂, h1, .cons q4 (.cons q4' (.nil _)), fun n hn => ?_, ?_⟩
  · simp only [List.flatMap_cons, List.flatMap_nil, List.append_nil, List.mem_append] at hn
    rcases hn with hn | hn | hn
    · exact h2 n hn
    · exact q5 n hn
    · exact q5' n hn
  · refine .cons (by rw [q1, q2]; rfl) ?_
    rw [q1, q3]
    refine .cons (by rw [q1', q2']; rfl) ?_
    rw [q1', q3']
    exact .nil _

end Props
