import Verif.Proofs.Check
import Verif.Spec.Examples

/-!
# Reading functions (C10, C18, C19, C20, C54, C55)
-/

namespace Lumberjack
namespace Props

open Lumberjack.Tree

theorem proj_wf : Examples.proj.WF := wf_of_check (by decide +kernel)
theorem disc_wf : Examples.disc.WF := wf_of_check (by decide +kernel)
theorem nested_wf : Examples.nested.WF := wf_of_check (by decide +kernel)

/-! ## C10 -/

/-- C10: `is_projective` is true exactly if every node dominates a contiguous block of sentence
positions. -/
theorem C10_is_projective (t : Tree) (W : t.WF) :
    t.isProjective = true ↔
      ∀ n, t.Live n → ∀ i j k, t.Covers n i → t.Covers n j → i ≤ k → k ≤ j → t.Covers n k := by
  rw [isProjective_iff W.count]
  constructor
  · intro h n hn i j k hi hj hik hkj
    obtain ⟨nd, hnd⟩ := hn
    obtain ⟨hv, hc⟩ := W.span_spec hnd
    rw [← hc] at hi hj ⊢
    have hns : nd.span.skips = none := by
      cases nd with
      | nt x =>
        by_contra hs
        exact h n ⟨x, hnd, by rw [Option.isSome_iff_ne_none]; exact hs⟩
      | term x =>
        obtain ⟨p, _, y, hy, hs⟩ := W.sentence.pos n ⟨x, hnd⟩
        rw [hnd] at hy
        simp only [Option.some.injEq, Node.term.injEq] at hy
        subst hy
        show x.span.skips = none
        rw [hs]; rfl
    rw [Span.mem_indices] at hi hj ⊢
    refine ⟨by omega, by omega, ?_⟩
    rw [hns]; simp
  · rintro h n ⟨x, hx, hs⟩
    obtain ⟨hv, hc⟩ := W.span_spec hx
    obtain ⟨a, ha, b, hb, k, hk, h1, h2⟩ := hv.skips_iff.1 hs
    rw [hc] at ha hb
    exact hk ((hc k).2 (h n ⟨_, hx⟩ a b k ha hb (by omega) (by omega)))

example : Examples.proj.WF ∧ Examples.proj.isProjective = true := ⟨proj_wf, rfl⟩
example : Examples.disc.WF ∧ Examples.disc.isProjective = false := ⟨disc_wf, rfl⟩

/-! ## C18 -/

/-- C18: `siblings(n)` lists, without repetition, exactly the other nodes with the same parent. -/
theorem C18_siblings (t : Tree) (W : t.WF) (n : Nat) :
    ((t.siblings n).map (·.1)).Nodup ∧
    ∀ m, m ∈ (t.siblings n).map (·.1) ↔ m ≠ n ∧ ∃ p, t.IsChild p n ∧ t.IsChild p m :=
  ⟨siblings_nodup W.graph W.shape n, fun _ => mem_siblings W.shape⟩

example : (Examples.proj.siblings 3).map (·.1) = [4] := by decide

/-- C18: `are_siblings(a, b)` holds exactly if `a` and `b` are the same node and it has a parent;
the documented meaning "same parent" is refuted below. -/
theorem C18_are_siblings (t : Tree) (W : t.WF) (a b : Nat) :
    t.areSiblings a b = true ↔ a = b ∧ ∃ p, t.IsChild p a := by
  unfold areSiblings
  cases ha : t.parent a with
  | none =>
    simp only [Bool.false_eq_true, false_iff, not_and, not_exists]
    intro _ p; exact parent_none.1 ha p
  | some pa =>
    cases hb : t.parent b with
    | none =>
      simp only [Bool.false_eq_true, false_iff, not_and, not_exists]
      rintro rfl
      rw [ha] at hb; simp at hb
    | some pb =>
      simp only [decide_eq_true_eq]
      constructor
      · rintro rfl
        obtain ⟨r, hr, _, h2, h3, _⟩ := parent_some (p := pa.1) (e := pa.2) ha
        obtain ⟨s, hs, _, h5, h6, _⟩ := parent_some (p := pa.1) (e := pa.2) hb
        have := W.graph.edge_ext hr hs (h3.trans h6.symm)
        subst this
        exact ⟨h2.symm.trans h5, pa.1, parent_isChild (e := pa.2) ha⟩
      · rintro ⟨rfl, _⟩
        rw [ha] at hb
        simpa using hb

/-- The documented meaning of `are_siblings` fails: two children of one node are reported not to be
siblings. -/
theorem C18_are_siblings_refuted : ∃ t : Tree, t.WF ∧ ∃ p a b, t.IsChild p a ∧ t.IsChild p b ∧
    a ≠ b ∧ t.areSiblings a b = false :=
  ⟨Examples.proj, proj_wf, 2, 3, 4, ⟨Examples.pe 2 2 3, by decide, rfl, rfl, rfl⟩,
    ⟨Examples.pe 3 2 4, by decide, rfl, rfl, rfl⟩, by decide, by decide⟩

/-! ## C19 -/

/-- C19: `descendent_terminals(n)` yields every terminal dominated by `n` exactly once and nothing
else. -/
theorem C19_descendent_terminals (t : Tree) (W : t.WF) (n : Nat) (hn : t.Live n) :
    ∃ l, t.descendentTerminals n = .ok l ∧ l.Nodup ∧ ∀ m, m ∈ l ↔ t.Dom n m ∧ t.IsTerm m :=
  descendentTerminals_spec W.graph hn

example : Examples.disc.Live 3 ∧ Examples.disc.descendentTerminals 3 = .ok [0, 2] :=
  ⟨⟨_, rfl⟩, by decide⟩

/-! ## C20 -/

/-- C20: a climber started at `n` terminates and returns exactly the proper ancestors of `n`, each
once, from the parent upwards: each item is the parent of the one before, and the last is the
root. -/
theorem C20_climber (t : Tree) (W : t.WF) (n : Nat) (hn : t.Live n) :
    ∃ l, t.climb n = .ok l ∧ (∀ m, m ∈ l ↔ m ≠ n ∧ t.Dom m n) ∧ l.Nodup ∧
      (n :: l).IsChain (fun a b => t.IsChild b a) ∧ (n :: l).getLast? = some t.root := by
  obtain ⟨l, hl⟩ := W.shape.exists_anc hn
  refine ⟨l, climb_eq W.graph W.shape hn hl, ?_, (hl.nodup W.graph W.shape).of_cons, ?_, ?_⟩
  · intro m
    rw [hl.mem_iff W.shape]
    constructor
    · intro h
      refine ⟨?_, h.to_reflTransGen⟩
      rintro rfl
      exact W.shape.acyclic W.graph m h
    · rintro ⟨hne, hd⟩
      rcases hd.cases_parent with h | ⟨c, h1, h2⟩
      · exact absurd h.symm hne
      · exact transGen_iff.2 ⟨c, h1, h2⟩
  · have : ∀ (l : List Nat) (n : Nat), t.Anc n l → (n :: l).IsChain (fun a b => t.IsChild b a) := by
      intro l
      induction l with
      | nil => intro n _; exact List.isChain_singleton _
      | cons p l ih => intro n h; exact List.IsChain.cons_cons h.1 (ih p h.2)
    exact this l n hl
  · rw [List.getLast?_eq_some_getLast (by simp), hl.last_root W.shape hn]

example : Examples.proj.climb 4 = .ok [2, 0] := by decide

/-! ## C54 -/

/-- What can be observed of the tree structure without looking at secondary edges. -/
def SameTree (t t' : Tree) : Prop :=
  (∀ n, t'.parent n = t.parent n) ∧ (∀ n, t'.children n = t.children n) ∧
  (∀ n, t'.graph.node? n = t.graph.node? n) ∧ t'.root = t.root ∧ t'.nTerminals = t.nTerminals ∧
  t'.isProjective = t.isProjective ∧ (∀ n, t'.siblings n = t.siblings n)

theorem sameTree_of {t t' : Tree} (he : t'.primEdges = t.primEdges)
    (hn : ∀ n, t'.graph.node? n = t.graph.node? n) (hr : t'.root = t.root)
    (hk : t'.nTerminals = t.nTerminals) (hd : t'.numDisc = t.numDisc) : SameTree t t' := by
  refine ⟨parent_congr he, children_congr he, hn, hr, hk, by unfold isProjective; rw [hd], ?_⟩
  intro n
  unfold siblings
  rw [parent_congr he]
  cases t.parent n with
  | none => rfl
  | some q => simp only [children_congr he]

theorem node?_of_nodes {g g' : Graph} (h : g'.nodes = g.nodes) (n : Nat) : g'.node? n = g.node? n := by
  unfold Graph.node?; rw [h]

/-- C54: adding a secondary edge between two nodes of the tree succeeds, returns an unused edge
index, and changes nothing but the secondary edges. -/
theorem C54_add (t : Tree) (W : t.WF) (p c : Nat) (hp : t.Live p) (hc : t.Live c)
    (l : Option Str) :
    ∃ t' e, t.addSecondaryEdge p c l = .ok (t', e) ∧ t'.WF ∧ SameTree t t' ∧
      t.edge e = .panic ∧ t'.edge e = .ok (.secondary l) := by
  obtain ⟨g', e, h1, h2, h3, h4, h5, h6⟩ := Graph.addEdge_spec W.graph hp hc (.secondary l)
  have he : ({ t with graph := g' } : Tree).primEdges = t.primEdges := by
    unfold primEdges; simp only [h2]; rfl
  have hn : ∀ n, ({ t with graph := g' } : Tree).graph.node? n = t.graph.node? n := node?_of_nodes h3
  refine ⟨{ t with graph := g' }, e, ?_, W.congr h6 he rfl rfl rfl hn,
    sameTree_of he hn rfl rfl rfl, ?_, ?_⟩
  · unfold addSecondaryEdge; rw [h1]; rfl
  · unfold edge; rw [Graph.edge?_none.2 h5]; rfl
  · unfold edge
    rw [(Graph.edge?_eq h6 (r := ⟨e, p, c, .secondary l⟩)).2 ⟨by rw [h2]; simp, rfl⟩]
    rfl

/-- C54: `remove_secondary_edge` on an edge of the tree removes it if it is secondary and leaves the
tree alone if it is primary; either way nothing but secondary edges changes. -/
theorem C54_remove (t : Tree) (W : t.WF) (e : Nat) (w : Edge) (he : t.edge e = .ok w) :
    (w.isPrimary = true → t.removeSecondaryEdge e = .ok (t, none)) ∧
    (w.isPrimary = false → ∃ t', t.removeSecondaryEdge e = .ok (t', some w) ∧ t'.WF ∧
      SameTree t t' ∧ t'.edge e = .panic ∧ ∀ e', e' ≠ e → t'.edge e' = t.edge e') := by
  have he' := he
  unfold edge at he'
  rw [Res.ofOption_eq_ok, Option.map_eq_some_iff] at he'
  obtain ⟨r, hr, rfl⟩ := he'
  obtain ⟨hr1, hr2⟩ := (Graph.edge?_eq W.graph).1 hr
  constructor
  · intro hp
    unfold removeSecondaryEdge
    rw [he]
    simp only [Res.ok_bind, hp, Bool.not_true, Bool.false_eq_true, if_false]
    rfl
  · intro hp
    obtain ⟨g', h1, h2, h3, h4, h5⟩ := Graph.removeEdge_spec W.graph hr1 hr2
    have hpe : ({ t with graph := g' } : Tree).primEdges = t.primEdges := by
      unfold primEdges
      simp only [h2]
      rw [List.filter_filter]
      apply List.filter_congr
      intro s hs
      by_cases e' : s.id = e
      · have := W.graph.edge_ext hs hr1 (e'.trans hr2.symm)
        subst this
        simp [hp]
      · simp [e']
    have hn : ∀ n, ({ t with graph := g' } : Tree).graph.node? n = t.graph.node? n := node?_of_nodes h3
    refine ⟨{ t with graph := g' }, ?_, W.congr h5 hpe rfl rfl rfl hn,
      sameTree_of hpe hn rfl rfl rfl, ?_, ?_⟩
    · unfold removeSecondaryEdge
      rw [he]
      simp only [Res.ok_bind, hp, Bool.not_false, if_true, h1]
      rfl
    · unfold edge
      rw [Graph.edge?_none.2]
      · rfl
      · intro s hs
        rw [show ({ t with graph := g' } : Tree).graph.edges = _ from h2] at hs
        simpa using (List.mem_filter.1 hs).2
    · intro e' hne
      unfold edge Graph.edge?
      simp only [h2]
      rw [List.find?_filter]
      congr 2
      congr 1
      funext s
      by_cases h : s.id = e'
      · simp [h, hne]
      · simp [h]

/-- C54: an absent edge index makes `remove_secondary_edge` panic. -/
theorem C54_remove_absent (t : Tree) (e : Nat) (he : t.edge e = .panic) :
    t.removeSecondaryEdge e = .panic := by
  unfold removeSecondaryEdge; rw [he]; rfl

/-- C54: reattaching a secondary edge changes nothing but secondary edges. -/
theorem C54_reattach (t : Tree) (W : t.WF) (p e : Nat) (hp : t.Live p) (l : Option Str) (r : EdgeRec)
    (hr : t.graph.edge? e = some r) (hw : r.w = .secondary l) (hne : r.tgt ≠ p) :
    ∃ t' e', t.reattachNode p e = .ok (t', .ok (e', .secondary l)) ∧ t'.WF ∧ SameTree t t' ∧
      t'.graph.edge? e' = some ⟨e', p, r.tgt, .secondary none⟩ := by
  obtain ⟨hr1, hr2⟩ := (Graph.edge?_eq W.graph).1 hr
  obtain ⟨g1, h1, h2, h3, h4, h5⟩ := Graph.removeEdge_spec W.graph hr1 hr2
  have hl1 : ∀ n, g1.Live n ↔ t.graph.Live n := fun n => by
    unfold Graph.Live; rw [node?_of_nodes h3]
  obtain ⟨g2, e', k1, k2, k3, k4, k5, k6⟩ := Graph.addEdge_spec h5 ((hl1 p).2 hp)
    ((hl1 r.tgt).2 (W.graph.ends r hr1).2) (.secondary none)
  have hpe : ({ t with graph := g2 } : Tree).primEdges = t.primEdges := by
    unfold primEdges
    simp only [k2, h2]
    show List.filter _ (List.filter _ _) = _
    rw [List.filter_filter]
    apply List.filter_congr
    intro s hs
    by_cases e' : s.id = e
    · have := W.graph.edge_ext hs hr1 (e'.trans hr2.symm)
      subst this
      simp [hw, Edge.isPrimary]
    · simp [e']
  have hn : ∀ n, ({ t with graph := g2 } : Tree).graph.node? n = t.graph.node? n := fun n => by
    unfold Graph.node?; simp only [k3, h3]
  refine ⟨{ t with graph := g2 }, e', ?_, W.congr k6 hpe rfl rfl rfl hn,
    sameTree_of hpe hn rfl rfl rfl, (Graph.edge?_eq k6).2 ⟨by rw [k2]; simp, rfl⟩⟩
  unfold reattachNode
  rw [Graph.contains_iff.2 hp, hr]
  simp only [Res.assert_true, Res.ok_bind, Res.ofOption_some, if_neg hne, hw]
  unfold reattachSecondary
  rw [hr]
  simp only [Res.ofOption_some, Res.ok_bind, h1, k1, hw]
  rfl

example : ∃ t e, Examples.disc.addSecondaryEdge 3 1 none = .ok (t, e) ∧ t.secondaryParent 1 = some (3, e) ∧
    t.edge e = .ok (.secondary none) ∧ t.reattachNode 4 e ≠ .panic := by
  refine ⟨_, _, rfl, ?_⟩
  decide +kernel

/-! ## C55 -/

/-- C55: `sort_indices` applied to the terminals lists each of them once, the terminal at position
`i` being the `i`-th. -/
theorem C55_sentence_order (t : Tree) (W : t.WF) :
    (t.sortIndices t.terminals).length = t.nTerminals ∧
    ∀ n i, (t.sortIndices t.terminals)[i]? = some n ↔ t.TermAt n i := by
  refine ⟨sorted_terminals_length W.sentence, fun n i => ⟨fun h => ?_, sorted_terminals_get W.sentence⟩⟩
  have hi : i < t.nTerminals := by
    rw [← sorted_terminals_length W.sentence]
    exact (List.getElem?_eq_some_iff.1 h).1
  obtain ⟨m, hm⟩ := W.sentence.occupied i hi
  have := sorted_terminals_get W.sentence hm
  rw [h] at this
  simp only [Option.some.injEq] at this
  subst this
  exact hm

/-- C55: the same for the children of a node: they are listed by the first position they cover. -/
theorem C55_children_order (t : Tree) (W : t.WF) (n : Nat) :
    (t.sortIndices ((t.children n).map (·.1))).Perm ((t.children n).map (·.1)) ∧
    (t.sortIndices ((t.children n).map (·.1))).Pairwise
      (fun a b => ∃ i, t.Covers a i ∧ ∀ j, t.Covers b j → i < j) := by
  have hl : ∀ a ∈ (t.children n).map (·.1), t.IsChild n a := fun a ha => mem_children_fst.1 ha
  have hstart : ∀ a, t.Live a → t.Covers a (t.startOf a) ∧ ∀ j, t.Covers a j → t.startOf a ≤ j := by
    rintro a ⟨nd, hnd⟩
    obtain ⟨hv, hc⟩ := W.span_spec hnd
    have : t.startOf a = nd.span.start := by unfold startOf; rw [hnd]
    rw [this]
    exact ⟨(hc _).1 hv.start_mem, fun j hj => Span.start_le_of_mem ((hc j).2 hj)⟩
  have hinj : ∀ a ∈ (t.children n).map (·.1), ∀ b ∈ (t.children n).map (·.1),
      t.startOf a = t.startOf b → a = b := by
    intro a ha b hb e
    have h1 := (hstart a (isChild_live W.graph (hl a ha)).2).1
    have h2 := (hstart b (isChild_live W.graph (hl b hb)).2).1
    rw [e] at h1
    rcases covers_disjoint W.shape W.sentence.inj h1 h2 with h | h
    · exact W.shape.siblings_not_dom W.graph (hl a ha) (hl b hb) h
    · exact (W.shape.siblings_not_dom W.graph (hl b hb) (hl a ha) h).symm
  refine ⟨sortIndices_perm _, ?_⟩
  have hs := sortIndices_strict (t := t) (fun a ha => (isChild_live W.graph (hl a ha)).2)
    (children_nodup W.graph W.shape n) hinj
  refine hs.imp_of_mem (fun {a b} ha hb h => ?_)
  have ha' := (sortIndices_perm _).mem_iff.1 ha
  have hb' := (sortIndices_perm _).mem_iff.1 hb
  exact ⟨t.startOf a, (hstart a (isChild_live W.graph (hl a ha')).2).1, fun j hj =>
    h.trans_le ((hstart b (isChild_live W.graph (hl b hb')).2).2 j hj)⟩

example : Examples.proj.terminals = [1, 3, 4] ∧
    Examples.proj.sortIndices Examples.proj.terminals = [4, 3, 1] := by decide

end Props
end Lumberjack
