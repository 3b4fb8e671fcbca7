import Verif.Proofs.Inverse
import Verif.Props.Undo
import Verif.Model.Ptb

/-!
# Edits that take each other back (C84)
-/

namespace Lumberjack
namespace Props

open Lumberjack.Tree

/-- C84: moving a terminal and moving it back to where it was gives the tree as it was, edge indices included. -/
theorem C84_move_back (t : Tree) (W : t.WF) (n o i : Nat) (hn : t.TermAt n o) (hi : i < t.nTerminals) :
    ∃ t' u, t.moveTerminal n i = .ok t' ∧ t'.moveTerminal n o = .ok u ∧ u.WF ∧ u.graph.edges = t.graph.edges ∧
      Regained t u :=
  move_back W hn hi

example : Examples.disc.TermAt 6 3 ∧ 0 < Examples.disc.nTerminals := ⟨⟨_, rfl, rfl⟩, by decide⟩

/-- C84: attaching a node to an ancestor or another descendant of its parent, then attaching it to its old parent again
and giving the new edge the content of the old one, gives the tree as it was. -/
theorem C84_reattach_back (t : Tree) (W : t.WF) (r : EdgeRec) (q : Nat) (hr : r ∈ t.graph.edges)
    (hw : r.w.isPrimary = true) (hq : t.IsNt q) (hcq : ¬ t.Dom r.tgt q)
    (hsib : r.src = q ∨ ∃ s, s ≠ r.tgt ∧ t.IsChild r.src s) (hd : t.Dom q r.src ∨ t.Dom r.src q) :
    ∃ t' e' u, t.reattachNode q r.id = .ok (t', .ok (e', r.w)) ∧ t'.undoMove (r.src, r.w, r.tgt) = .ok u ∧ u.WF ∧
      Regained t u :=
  reattach_back W hr hw hq hcq hsib hd

/-- The verb is attached to the root, away from its verb phrase. -/
example : Examples.pe 2 4 1 ∈ Examples.nested.graph.edges ∧ Examples.nested.IsNt 5 ∧ ¬ Examples.nested.Dom 1 5 ∧
    (∃ s, s ≠ 1 ∧ Examples.nested.IsChild 4 s) ∧ Examples.nested.Dom 5 4 := by
  refine ⟨by decide, ⟨_, rfl⟩, ?_, ⟨3, by decide, Examples.pe 1 4 3, by decide, rfl, rfl, rfl⟩,
    Relation.ReflTransGen.single ⟨Examples.pe 3 5 4, by decide, rfl, rfl, rfl⟩⟩
  intro h
  have := nested_wf.shape.dom_term (n := 1) (m := 5) ⟨_, rfl⟩ h
  simp at this

/-- C84: putting a new node above a node that is not discontinuous and removing it gives the tree as it was, provided
the edge to the node has no label. -/
theorem C84_above_back (t : Tree) (W : t.WF) (n : Nat) (nd : Node) (label : Str) (hn : t.graph.node? n = some nd)
    (hd : ¬ t.Disc n) (hl : ∀ r ∈ t.graph.edges, r.w.isPrimary = true → r.tgt = n → r.w = .primary none) :
    ∃ t' ins u, t.insertUnaryAbove n label = .ok (t', ins) ∧
      t'.removeNode ins = .ok (u, .ok (.nt ⟨label, none, nd.span⟩)) ∧ u.WF ∧ Regained t u :=
  above_back W hn label hd hl

example : ∃ nd, Examples.disc.graph.node? 5 = some nd ∧ ¬ Examples.disc.Disc 5 ∧
    ∀ r ∈ Examples.disc.graph.edges, r.w.isPrimary = true → r.tgt = 5 → r.w = .primary none :=
  ⟨_, rfl, by decide, by decide⟩

/-- C84: putting a new node below a nonterminal that is not discontinuous and removing it gives the tree as it was,
provided the edges to the children have no labels. -/
theorem C84_below_back (t : Tree) (W : t.WF) (n : Nat) (x : NonTerminal) (label : Str)
    (hn : t.graph.node? n = some (.nt x)) (hd : ¬ t.Disc n)
    (hl : ∀ r ∈ t.graph.edges, r.w.isPrimary = true → r.src = n → r.w = .primary none) :
    ∃ t' ins u, t.insertUnaryBelow n label = .ok (t', .ok ins) ∧
      t'.removeNode ins = .ok (u, .ok (.nt ⟨label, none, x.span⟩)) ∧ u.WF ∧ Regained t u :=
  below_back W hn label hd hl

example : ∃ x, Examples.disc.graph.node? 4 = some (.nt x) ∧ ¬ Examples.disc.Disc 4 ∧
    ∀ r ∈ Examples.disc.graph.edges, r.w.isPrimary = true → r.src = 4 → r.w = .primary none :=
  ⟨_, rfl, by decide, by decide⟩

/-- C84: adding a secondary edge and removing it gives the tree with the very same nodes and edges. -/
theorem C84_secondary_back (t : Tree) (W : t.WF) (p c : Nat) (l : Option Str) (hp : t.Live p) (hc : t.Live c) :
    ∃ t' e u, t.addSecondaryEdge p c l = .ok (t', e) ∧ t'.removeSecondaryEdge e = .ok (u, some (.secondary l)) ∧
      u.WF ∧ u.graph.edges = t.graph.edges ∧ Regained t u := by
  obtain ⟨g', e, h1, h2, h3, h4, h5, h6⟩ := Graph.addEdge_spec W.graph hp hc (.secondary l)
  have hr : (⟨e, p, c, .secondary l⟩ : EdgeRec) ∈ g'.edges := by rw [h2]; simp
  obtain ⟨g2, k1, k2, k3, k4, k5⟩ := Graph.removeEdge_spec h6 hr rfl
  have he : g2.edges = t.graph.edges := by
    rw [k2, h2, List.filter_cons_of_neg (by simp), List.filter_eq_self]
    intro s hs
    simpa using h5 s hs
  have hn : ∀ n, g2.node? n = t.graph.node? n := node?_of_nodes (k3.trans h3)
  have Wu : ({ t with graph := g2 } : Tree).WF :=
    W.congr k5 (by unfold primEdges; rw [he]) rfl rfl rfl hn
  refine ⟨{ t with graph := g' }, e, { t with graph := g2 }, ?_, ?_, Wu, he, ⟨hn, by rw [he], rfl, rfl, rfl⟩⟩
  · unfold addSecondaryEdge; rw [h1]; rfl
  · unfold removeSecondaryEdge edge
    rw [(Graph.edge?_eq h6).2 ⟨hr, rfl⟩]
    simp only [Option.map_some, Res.ofOption_some, Res.ok_bind, k1]
    rfl

example : Examples.disc.Live 3 ∧ Examples.disc.Live 1 := ⟨⟨_, rfl⟩, ⟨_, rfl⟩⟩

/-- C84: the proviso about labels is needed: after putting a node above the target of a labelled edge, or below its
source, and removing it again the label is gone. -/
theorem C84_labels_lost :
    (∃ (t : Tree) (n : Nat) (l : Str) (t' : Tree) (ins : Nat) (u : Tree) (v : Node), t.WF ∧ ¬ t.Disc n ∧
      t.insertUnaryAbove n l = .ok (t', ins) ∧ t'.removeNode ins = .ok (u, .ok v) ∧
      (∃ r ∈ t.graph.edges, r.w.label.isSome = true) ∧ ∀ r ∈ u.graph.edges, r.w.label = none) ∧
    (∃ (t : Tree) (n : Nat) (l : Str) (t' : Tree) (ins : Nat) (u : Tree) (v : Node), t.WF ∧ ¬ t.Disc n ∧
      t.insertUnaryBelow n l = .ok (t', .ok ins) ∧ t'.removeNode ins = .ok (u, .ok v) ∧
      (∃ r ∈ t.graph.edges, r.w.label.isSome = true) ∧ ∀ r ∈ u.graph.edges, r.w.label = none) := by
  refine ⟨⟨Examples.disc, 1, "U".toList, _, _, _, _, disc_wf, by decide, rfl, rfl, by decide +kernel, by decide +kernel⟩,
    ⟨Examples.disc, 5, "U".toList, _, _, _, _, disc_wf, by decide, rfl, rfl, by decide +kernel, by decide +kernel⟩⟩

/-- C84: the proviso about discontinuity is needed: after putting a node above a discontinuous one and removing it, all
nodes are as they were but the tree counts as projective, and the bracketed writer, which would have refused it, writes it
with the words in another order. -/
theorem C84_disc_refuted : ∃ (t : Tree) (n : Nat) (l : Str) (t' : Tree) (ins : Nat) (u : Tree) (v : Node) (s : Str),
    t.WF ∧ t.Disc n ∧ t.insertUnaryAbove n l = .ok (t', ins) ∧ t'.removeNode ins = .ok (u, .ok v) ∧
    (∀ m < 7, u.graph.node? m = t.graph.node? m) ∧ t.isProjective = false ∧ u.isProjective = true ∧
    Ptb.treeToString .simple t = .ok (.error .nonProjective) ∧
    Ptb.treeToString .simple u = .ok (.ok s) ∧ s = "(ROOT (A (X a) (Z c)) (B (Y b)) (W d))".toList :=
  ⟨Examples.disc, 3, "U".toList, _, _, _, _, _, disc_wf, by decide, rfl, rfl, by decide +kernel, rfl, rfl, rfl,
    rfl, by decide +kernel⟩

end Props
end Lumberjack
