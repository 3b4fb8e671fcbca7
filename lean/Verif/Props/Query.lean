import Verif.Props.TreeQuery
import Verif.Props.NodeApi
import Verif.Proofs.History
import Verif.Proofs.NegraWrite

/-!
# Looking at a tree and changing single attributes (C77)
-/

namespace Lumberjack
namespace Props

open Lumberjack.Tree

/-- The edge with index `e` goes from `p` to `c` and is `w`. -/
def HasEdge (t : Tree) (e p c : Nat) (w : Edge) : Prop := ⟨e, p, c, w⟩ ∈ t.graph.edges

/-! ## Parent and children -/

theorem prim_iff (w : Edge) : w.isPrimary = true ↔ ∃ l, w = .primary l := by
  cases w <;> simp [Edge.isPrimary]

theorem sec_iff (w : Edge) : w.isPrimary = false ↔ ∃ l, w = .secondary l := by
  cases w <;> simp [Edge.isPrimary]

/-- C77: `parent(n)` is the node at the other end of the primary edge to `n`, with that edge; the root and nodes that
are not in the tree have none, every other node has one. -/
theorem C77_parent (t : Tree) (W : t.WF) (n : Nat) :
    (∀ p e, t.parent n = some (p, e) ↔ ∃ l, HasEdge t e p n (.primary l)) ∧
    (t.parent n = none ↔ n = t.root ∨ ¬ t.Live n) := by
  constructor
  · intro p e
    constructor
    · intro h
      obtain ⟨r, h1, rfl, rfl, rfl, h5⟩ := parent_some h
      obtain ⟨l, hl⟩ := (prim_iff _).1 h5
      exact ⟨l, by rw [HasEdge, ← hl]; exact h1⟩
    · rintro ⟨l, h⟩
      cases hp : t.parent n with
      | none => exact absurd ⟨_, h, rfl, rfl, rfl⟩ (parent_none.1 hp p)
      | some x =>
        obtain ⟨r, h1, h2, h3, h4, h5⟩ := parent_some (p := x.1) (e := x.2) hp
        have := W.shape.unique r h1 _ h h3 h5 rfl
        subst this
        rw [show x = (x.1, x.2) from rfl, ← h2, ← h4]
  · rw [parent_none]
    constructor
    · intro h
      by_cases hl : t.Live n
      · rcases (W.shape.reach n hl).cases_parent with h1 | ⟨c, h1, h2⟩
        · exact .inl h1
        · exact absurd h2 (h c)
      · exact .inr hl
    · rintro (rfl | h) p hp
      · exact W.shape.root_top p hp
      · obtain ⟨r, h1, h2, h3, h4⟩ := hp
        exact h (h3 ▸ (W.graph.ends r h1).2)

theorem edges_pairs_nodup {g : Graph} (G : g.OK) (q : EdgeRec → Bool) (f : EdgeRec → Nat) :
    ((g.edges.filter q).map fun r => (f r, r.id)).Nodup := by
  have h : ((g.edges.filter q).map (·.id)).Nodup := by
    exact G.ids_nodup.sublist (List.filter_sublist.map _)
  have := List.Nodup.of_map (l := (g.edges.filter q).map fun r => (f r, r.id)) (f := Prod.snd) (by
    rw [List.map_map]; exact h)
  exact this

/-- C77: `children(n)` yields every primary edge from `n` exactly once, with the node it leads to. -/
theorem C77_children (t : Tree) (W : t.WF) (n : Nat) :
    (t.children n).Nodup ∧ ((t.children n).map (·.1)).Nodup ∧
    ∀ c e, (c, e) ∈ t.children n ↔ ∃ l, HasEdge t e n c (.primary l) := by
  refine ⟨?_, children_nodup W.graph W.shape n, ?_⟩
  · unfold children Graph.outEdges
    rw [List.filter_filter]
    exact edges_pairs_nodup W.graph _ _
  · intro c e
    rw [mem_children]
    constructor
    · rintro ⟨r, h1, rfl, rfl, rfl, h5⟩
      obtain ⟨l, hl⟩ := (prim_iff _).1 h5
      exact ⟨l, by rw [HasEdge, ← hl]; exact h1⟩
    · rintro ⟨l, h⟩
      exact ⟨_, h, rfl, rfl, rfl, rfl⟩

/-- C77: `secondary_children(n)` yields every secondary edge from `n` exactly once, with the node it leads to. -/
theorem C77_secondary_children (t : Tree) (W : t.WF) (n : Nat) :
    (t.secondaryChildren n).Nodup ∧
    ∀ c e, (c, e) ∈ t.secondaryChildren n ↔ ∃ l, HasEdge t e n c (.secondary l) := by
  constructor
  · unfold secondaryChildren Graph.outEdges
    rw [List.filter_filter]
    exact edges_pairs_nodup W.graph _ _
  · intro c e
    unfold secondaryChildren
    simp only [List.mem_map, List.mem_filter, Graph.outEdges, decide_eq_true_eq, Prod.mk.injEq]
    constructor
    · rintro ⟨r, ⟨⟨h1, rfl⟩, h3⟩, rfl, rfl⟩
      obtain ⟨l, hl⟩ := (sec_iff _).1 (by simpa using h3)
      exact ⟨l, by rw [HasEdge, ← hl]; exact h1⟩
    · rintro ⟨l, h⟩
      exact ⟨_, ⟨⟨h, rfl⟩, rfl⟩, rfl, rfl⟩

/-- C77: `secondary_parent(n)` is the node at the other end of a secondary edge to `n`, with that edge; it is there
whenever there is such an edge. -/
theorem C77_secondary_parent (t : Tree) (n : Nat) :
    (∀ p e, t.secondaryParent n = some (p, e) → ∃ l, HasEdge t e p n (.secondary l)) ∧
    (t.secondaryParent n = none ↔ ∀ p e l, ¬ HasEdge t e p n (.secondary l)) := by
  have h1 : ∀ p e, t.secondaryParent n = some (p, e) → ∃ l, HasEdge t e p n (.secondary l) := by
    intro p e h
    obtain ⟨r, h1, rfl, rfl, rfl, h5⟩ := Negra.secondaryParent_some h
    obtain ⟨l, hl⟩ := (sec_iff _).1 h5
    exact ⟨l, by rw [HasEdge, ← hl]; exact h1⟩
  refine ⟨h1, fun h p e l he => ?_, fun h => ?_⟩
  · have := Negra.secondaryParent_none h _ he rfl
    cases this
  · cases hs : t.secondaryParent n with
    | none => rfl
    | some x =>
      obtain ⟨l, hl⟩ := h1 x.1 x.2 hs
      exact absurd hl (h _ _ _)

/-- C77: right after `add_secondary_edge(p, c)` that edge is what `secondary_parent(c)` and the first item of
`secondary_children(p)` show, the other secondary children of `p` follow, and those of other nodes are as before. -/
theorem C77_added (t : Tree) (W : t.WF) (p c : Nat) (l : Option Str) (t' : Tree) (e : Nat)
    (h : t.addSecondaryEdge p c l = .ok (t', e)) :
    t'.secondaryParent c = some (p, e) ∧ t'.secondaryChildren p = (c, e) :: t.secondaryChildren p ∧
    (∀ n, n ≠ p → t'.secondaryChildren n = t.secondaryChildren n) ∧
    ∀ n, n ≠ c → t'.secondaryParent n = t.secondaryParent n := by
  have hl : t.graph.Live p ∧ t.graph.Live c := by
    unfold addSecondaryEdge Graph.addEdge at h
    obtain ⟨x, h1, _⟩ := Res.bind_eq_ok.1 h
    obtain ⟨_, h2, h3⟩ := Res.bind_eq_ok.1 h1
    have hb : (t.graph.contains p && t.graph.contains c) = true := by
      by_contra hc
      simp [hc, Res.assert] at h2
    rw [Bool.and_eq_true] at hb
    exact ⟨Option.isSome_iff_exists.1 hb.1, Option.isSome_iff_exists.1 hb.2⟩
  obtain ⟨g', e', h1, h2, h3, h4, h5, h6⟩ := Graph.addEdge_spec W.graph hl.1 hl.2 (.secondary l)
  unfold addSecondaryEdge at h
  rw [h1] at h
  simp only [Res.ok_bind, Res.pure_eq, Res.ok.injEq, Prod.mk.injEq] at h
  obtain ⟨rfl, rfl⟩ := h
  refine ⟨?_, ?_, fun n hn => ?_, fun n hn => ?_⟩
  · simp [secondaryParent, Graph.inEdges, h2, Edge.isPrimary]
  · simp [secondaryChildren, Graph.outEdges, h2, Edge.isPrimary]
  · simp [secondaryChildren, Graph.outEdges, h2, Ne.symm hn]
  · simp [secondaryParent, Graph.inEdges, h2, Ne.symm hn]

/-! ## The nodes -/

/-- C77: `terminals` and `nonterminals` yield every terminal and every nonterminal once, in the order of their indices,
and nothing else; there are `n_terminals` terminals, and the root is a node. -/
theorem C77_nodes (t : Tree) (W : t.WF) :
    t.terminals.Pairwise (· < ·) ∧ t.nonterminals.Pairwise (· < ·) ∧
    (∀ n, n ∈ t.terminals ↔ ∃ nd, t.node n = .ok nd ∧ nd.attrs.terminal = true) ∧
    (∀ n, n ∈ t.nonterminals ↔ ∃ nd, t.node n = .ok nd ∧ nd.attrs.terminal = false) ∧
    t.terminals.length = t.nTerminals ∧ (t.root ∈ t.terminals ∨ t.root ∈ t.nonterminals) := by
  have hs : ∀ q : Nat → Bool, (t.graph.nodeIndices.filter q).Pairwise (· < ·) := fun q =>
    (List.pairwise_lt_range.filter _).filter _
  refine ⟨hs _, hs _, fun n => ?_, fun n => ?_, ?_, ?_⟩
  · rw [mem_terminals]
    constructor
    · rintro ⟨x, hx⟩
      exact ⟨_, node_ok.2 hx, rfl⟩
    · rintro ⟨nd, h1, h2⟩
      cases nd with
      | term x => exact ⟨x, node_ok.1 h1⟩
      | nt x => cases h2
  · rw [mem_nonterminals]
    constructor
    · rintro ⟨x, hx⟩
      exact ⟨_, node_ok.2 hx, rfl⟩
    · rintro ⟨nd, h1, h2⟩
      cases nd with
      | nt x => exact ⟨x, node_ok.1 h1⟩
      | term x => cases h2
  · rw [← sorted_terminals_length W.sentence]
    exact (sortIndices_perm _).length_eq.symm
  · obtain ⟨nd, h⟩ := W.shape.root_live
    cases nd with
    | term x => exact .inl (mem_terminals.2 ⟨x, h⟩)
    | nt x => exact .inr (mem_nonterminals.2 ⟨x, h⟩)

/-! ## Changing attributes -/

/-- The attribute a setter changes, as an update of the attributes of a node; `set_form` and `set_lemma` are reached
through `terminal_mut`, which a nonterminal does not have. -/
def setAttr : Attr → Attrs → Attrs
  | .label s, a => { a with label := s }
  | .features f, a => { a with features := f }
  | .form s, a => if a.terminal then { a with form := some s } else a
  | .lem l, a => if a.terminal then { a with lemma? := l } else a

/-- C77: changing an attribute of a node through the tree changes that attribute of that node: all other attributes, all
other nodes, the edges, the root, the number of terminals and the answer of `is_projective` are as before, and the tree
is well formed.  It panics exactly if there is no such node. -/
theorem C77_set_attribute (t : Tree) (W : t.WF) (n : Nat) (a : Attr) :
    (¬ t.Live n → t.editNode n a = .panic) ∧
    (∀ nd, t.node n = .ok nd → ∃ t' nd', t.editNode n a = .ok t' ∧ t'.WF ∧
      t'.node n = .ok nd' ∧ nd'.attrs = setAttr a nd.attrs ∧
      (∀ m, m ≠ n → t'.node m = t.node m) ∧ (∀ e p c w, HasEdge t' e p c w ↔ HasEdge t e p c w) ∧
      t'.root = t.root ∧ t'.nTerminals = t.nTerminals ∧ t'.isProjective = t.isProjective) := by
  constructor
  · intro h
    have : t.node n = .panic := by
      unfold node
      cases hn : t.graph.node? n with
      | none => rfl
      | some nd => exact absurd ⟨nd, hn⟩ h
    unfold editNode
    rw [this]; rfl
  · intro nd hnd
    have he : t.editNode n a = .ok (t.setNode n (a.apply nd)) := by
      unfold editNode
      rw [hnd]; rfl
    obtain ⟨hE, -⟩ := editNode_edit he
    have hs : ∀ k nd, ((fun k nd => if k = n then a.apply nd else nd) k nd : Node).span = nd.span := by
      intro k nd
      simp only
      split
      · exact a.apply_span nd
      · rfl
    have hk : KeepsKind (fun k nd => if k = n then a.apply nd else nd) := by
      intro k nd
      simp only
      split
      · cases a <;> cases nd <;> rfl
      · rfl
    refine ⟨_, a.apply nd, he, hE.wf hk hs W, ?_, ?_, ?_, ?_, hE.root, hE.nTerm, ?_⟩
    · rw [node_ok, hE.node, node_ok.1 hnd]; simp
    · cases a <;> cases nd <;> rfl
    · intro m hm
      unfold node
      rw [hE.node]; simp [hm]
    · intro e p c w
      unfold HasEdge
      rw [hE.graph]
    · unfold isProjective
      rw [hE.disc]

/-- C77: changing the label of an edge through the tree changes the label of that edge: it stays primary or secondary
and keeps its ends; all other edges, all nodes, the root, the number of terminals and the answer of `is_projective` are
as before, and the tree is well formed.  It panics exactly if there is no such edge. -/
theorem C77_set_edge_label (t : Tree) (W : t.WF) (e : Nat) (l : Option Str) :
    ((∀ p c w, ¬ HasEdge t e p c w) → t.setEdgeLabel e l = .panic) ∧
    (∀ p c w, HasEdge t e p c w → ∃ t' w', t.setEdgeLabel e l = .ok t' ∧ t'.WF ∧
      w'.label = l ∧ w'.isPrimary = w.isPrimary ∧
      (∀ p' c' v, HasEdge t' e p' c' v ↔ p' = p ∧ c' = c ∧ v = w') ∧
      (∀ d p' c' v, d ≠ e → (HasEdge t' d p' c' v ↔ HasEdge t d p' c' v)) ∧
      (∀ n, t'.node n = t.node n) ∧
      t'.root = t.root ∧ t'.nTerminals = t.nTerminals ∧ t'.isProjective = t.isProjective) := by
  constructor
  · intro h
    have : t.edge e = .panic := by
      unfold edge
      rw [Graph.edge?_none.2]
      · rfl
      · rintro ⟨i, p, c, w⟩ hr rfl
        exact h p c w hr
    unfold setEdgeLabel
    rw [this]; rfl
  · intro p c w h
    have hq : t.graph.edge? e = some ⟨e, p, c, w⟩ := (Graph.edge?_eq W.graph).2 ⟨h, rfl⟩
    have he : t.setEdgeLabel e l = .ok { t with graph := t.graph.setEdge e (w.setLabel l) } := by
      unfold setEdgeLabel edge
      rw [hq]; rfl
    obtain ⟨W', hn⟩ := setEdgeLabel_wf W he
    refine ⟨_, w.setLabel l, he, W', by cases w <;> rfl, by cases w <;> rfl, ?_, ?_, ?_, rfl, rfl, rfl⟩
    · intro p' c' v
      constructor
      · intro hv
        obtain ⟨r, h1, h2⟩ := List.mem_map.1 hv
        split at h2
        · rename_i hid
          have := W.graph.edge_ext h1 h hid
          subst this
          simp only [EdgeRec.mk.injEq] at h2
          exact ⟨h2.2.1.symm, h2.2.2.1.symm, h2.2.2.2.symm⟩
        · rename_i hid
          subst h2
          exact absurd rfl hid
      · rintro ⟨rfl, rfl, rfl⟩
        exact List.mem_map.2 ⟨_, h, by simp⟩
    · intro d p' c' v hd
      constructor
      · intro hv
        obtain ⟨r, h1, h2⟩ := List.mem_map.1 hv
        split at h2
        · rename_i hid
          simp only [EdgeRec.mk.injEq] at h2
          exact absurd (h2.1.symm.trans hid) hd
        · subst h2; exact h1
      · intro hv
        exact List.mem_map.2 ⟨_, hv, by simp [hd]⟩
    · intro n
      unfold node
      rw [hn]

/-! ## The hypotheses are met -/

example := C77_parent _ disc_wf 4
example := C77_added Examples.disc disc_wf

/-- A secondary edge is seen by `secondary_parent` and `secondary_children`, and not by `parent` and `children`. -/
example : (match Examples.disc.addSecondaryEdge 3 1 (some ['x']) with
    | .ok (t', e) => decide (t'.secondaryParent 1 = some (3, e) ∧ t'.secondaryChildren 3 = [(1, e)] ∧
        t'.parent 1 = Examples.disc.parent 1 ∧ t'.children 3 = Examples.disc.children 3)
    | _ => false) = true := by
  decide +kernel

example : ∃ nd, Examples.disc.node 0 = .ok nd ∧ nd.attrs.terminal = true ∧
    (setAttr (.form ['w']) nd.attrs).form = some ['w'] := ⟨_, rfl, rfl, rfl⟩

example : ∃ e p c w, HasEdge Examples.disc e p c w := ⟨_, _, _, _, List.mem_cons_self⟩

end Props
end Lumberjack
