import Verif.Proofs.ProjectivizeOrder
import Verif.Props.TreeEdit
import Verif.Spec.Undo
import Verif.Spec.Iso

/-!
# Taking projectivization back
-/

namespace Lumberjack
namespace Tree

open Relation

variable {t t' u u' : Tree}

/-- What an edge is apart from its index. -/
def edgeKey (r : EdgeRec) : Nat × Nat × Edge := (r.src, r.tgt, r.w)

theorem edges_perm (G : t.graph.OK) {r : EdgeRec} (hr : r ∈ t.graph.edges) :
    t.graph.edges.Perm (r :: t.graph.edges.filter (fun s => s.id ≠ r.id)) := by
  have h1 : t.graph.edges.filter (fun s => s.id = r.id) = [r] := by
    have hnd := G.ids_nodup
    revert hr hnd
    generalize t.graph.edges = l
    induction l with
    | nil => intro h; simp at h
    | cons a l ih =>
      intro hr hnd
      rw [List.map_cons, List.nodup_cons] at hnd
      rcases List.mem_cons.1 hr with rfl | hr
      · rw [List.filter_cons_of_pos (by simp)]
        congr 1
        rw [List.filter_eq_nil_iff]
        intro s hs
        simp only [decide_eq_true_eq]
        intro e
        exact hnd.1 (List.mem_map.2 ⟨s, hs, e⟩)
      · rw [List.filter_cons_of_neg, ih hr hnd.2]
        simp only [decide_eq_true_eq]
        intro e
        exact hnd.1 (List.mem_map.2 ⟨r, hr, e.symm⟩)
  have h2 := List.filter_append_perm (fun s : EdgeRec => decide (s.id = r.id)) t.graph.edges
  rw [h1] at h2
  refine h2.symm.trans ?_
  have : (fun s : EdgeRec => !decide (s.id = r.id)) = fun s => decide (s.id ≠ r.id) := by
    funext s; simp
  rw [this]
  exact List.Perm.refl _

theorem Regained.refl (t : Tree) : Regained t t := ⟨fun _ => rfl, .refl _, rfl, rfl, rfl⟩

theorem Regained.mem (h : Regained t u) (p c : Nat) (w : Edge) :
    (∃ r ∈ u.graph.edges, r.src = p ∧ r.tgt = c ∧ r.w = w) ↔ ∃ r ∈ t.graph.edges, r.src = p ∧ r.tgt = c ∧ r.w = w := by
  have := h.edges.mem_iff (a := (p, c, w))
  simpa only [List.mem_map, Prod.mk.injEq] using this

theorem Regained.isChild (h : Regained t u) : u.IsChild = t.IsChild := by
  funext a b
  rw [eq_iff_iff]
  constructor
  · rintro ⟨r, hr, rfl, rfl, hw⟩
    obtain ⟨s, hs, h1, h2, h3⟩ := (h.mem r.src r.tgt r.w).1 ⟨r, hr, rfl, rfl, rfl⟩
    exact ⟨s, hs, h1, h2, h3 ▸ hw⟩
  · rintro ⟨r, hr, rfl, rfl, hw⟩
    obtain ⟨s, hs, h1, h2, h3⟩ := (h.mem r.src r.tgt r.w).2 ⟨r, hr, rfl, rfl, rfl⟩
    exact ⟨s, hs, h1, h2, h3 ▸ hw⟩

theorem Regained.dom (h : Regained t u) : u.Dom = t.Dom := by unfold Dom; rw [h.isChild]

theorem Regained.iso (h : Regained t u) : Iso t u id where
  root := h.root
  inj _ _ _ _ e := e
  onto n hn := ⟨n, by obtain ⟨x, hx⟩ := hn; exact ⟨x, by rw [← h.node]; exact hx⟩, rfl⟩
  node n _ := h.node n
  edge p n w _ _ := (h.mem p n w).symm

/-- Two well-formed trees with the same edges, contents and positions are alike. -/
theorem regained_of (W : t.WF) (Wu : u.WF) (hcont : ∀ n, u.content n = t.content n)
    (hedges : (u.graph.edges.map edgeKey).Perm (t.graph.edges.map edgeKey))
    (hterm : ∀ n i, u.TermAt n i ↔ t.TermAt n i)
    (hroot : u.root = t.root) (hnt : u.nTerminals = t.nTerminals) : Regained t u := by
  have hmem : ∀ a b w, (∃ r ∈ u.graph.edges, r.src = a ∧ r.tgt = b ∧ r.w = w) ↔
      ∃ r ∈ t.graph.edges, r.src = a ∧ r.tgt = b ∧ r.w = w := fun a b w => by
    have := hedges.mem_iff (a := (a, b, w))
    simpa only [List.mem_map, edgeKey, Prod.mk.injEq] using this
  have hch : u.IsChild = t.IsChild := by
    funext a b
    rw [eq_iff_iff]
    constructor
    · rintro ⟨r, hr, rfl, rfl, hw⟩
      obtain ⟨s, hs, h1, h2, h3⟩ := (hmem r.src r.tgt r.w).1 ⟨r, hr, rfl, rfl, rfl⟩
      exact ⟨s, hs, h1, h2, h3 ▸ hw⟩
    · rintro ⟨r, hr, rfl, rfl, hw⟩
      obtain ⟨s, hs, h1, h2, h3⟩ := (hmem r.src r.tgt r.w).2 ⟨r, hr, rfl, rfl, rfl⟩
      exact ⟨s, hs, h1, h2, h3 ▸ hw⟩
  have hcov : ∀ n i, u.Covers n i ↔ t.Covers n i := by
    intro n i
    unfold Covers Dom
    simp only [hch, hterm]
  have hnode : ∀ n, u.graph.node? n = t.graph.node? n := by
    intro n
    have hc := hcont n
    unfold content at hc
    cases h1 : u.graph.node? n with
    | none => rw [h1] at hc; exact (by simpa using hc.symm : t.graph.node? n = none).symm
    | some a =>
      rw [h1] at hc
      cases h2 : t.graph.node? n with
      | none => rw [h2] at hc; simp at hc
      | some b =>
        rw [h2] at hc
        simp only [Option.map_some, Option.some.injEq] at hc
        obtain ⟨v1, c1⟩ := Wu.span_spec h1
        obtain ⟨v2, c2⟩ := W.span_spec h2
        rw [node_ext hc (v1.ext v2 (by ext i; rw [c1, c2, hcov]))]
  refine ⟨hnode, hedges, hroot, hnt, ?_⟩
  have h1 := Wu.count
  have h2 := W.count
  unfold CountOK at h1 h2
  rw [h1, h2]
  congr 1
  ext n
  have hl : ∀ {v : Tree}, v.Disc n → n < v.graph.nodes.length := by
    rintro v ⟨x, hx, _⟩
    exact (show v.graph.Live n from ⟨_, hx⟩).lt
  have hd : u.Disc n ↔ t.Disc n := by unfold Disc; rw [hnode]
  simp only [Finset.mem_filter, Finset.mem_range]
  exact ⟨fun h => ⟨hl (hd.1 h.2), hd.1 h.2⟩, fun h => ⟨hl (hd.2 h.2), hd.2 h.2⟩⟩

/-- Attaching a node again to its former parent, by an edge with its former content. -/
theorem undoMove_back (W : t.WF) {p q c id id' : Nat} {w w' : Edge} (h1 : (⟨id, p, c, w⟩ : EdgeRec) ∈ t.graph.edges)
    (h2 : w.isPrimary = true) (h3 : t.IsNt q) (h4 : t.Dom p q ∨ t.Dom q p) (h6 : ¬ t.Dom c q)
    (h7 : t'.graph.edges = ⟨id', q, c, w'⟩ :: t.graph.edges.filter (fun s => s.id ≠ id)) (h2' : w'.isPrimary = true)
    (hmv : Moved t.IsChild t'.IsChild c q) (h8 : ∀ n, t'.content n = t.content n)
    (h9 : ∀ n i, t'.TermAt n i ↔ t.TermAt n i) (h10 : t'.root = t.root) (h11 : t'.nTerminals = t.nTerminals)
    (Wu : u'.WF) (h : Regained t' u') :
    ∃ u, u'.undoMove (p, w, c) = .ok u ∧ u.WF ∧ Regained t u := by
  -- the edge to be moved back
  have hqc : t'.IsChild q c := (hmv q c).2 (.inr ⟨rfl, rfl⟩)
  obtain ⟨r, hr, hr1, hr2, hr3⟩ := (h.mem q c w').2 ⟨⟨id', q, c, w'⟩, by rw [h7]; exact List.mem_cons_self .., rfl, rfl, rfl⟩
  have hrw : r.w.isPrimary = true := hr3 ▸ h2'
  have hpar : u'.parent c = some (q, r.id) := by
    obtain ⟨e, he⟩ := Wu.shape.parent_of_isChild (p := q) (n := c) (by rw [h.isChild]; exact hqc)
    obtain ⟨s, hs, s1, s2, s3, s4⟩ := parent_some he
    rw [he, ← s3, Wu.shape.unique s hs r hr (s2.trans hr2.symm) s4 hrw]
  have hpc : t.IsChild p c := ⟨_, h1, rfl, rfl, h2⟩
  have hcp0 : ¬ t.Dom c p := fun hd => W.shape.acyclic W.graph c (transGen_iff.2 ⟨p, hd, hpc⟩)
  have hdom : u'.Dom p q ∨ u'.Dom q p := by
    rw [h.dom]
    rcases h4 with h4 | h4
    · exact .inl ((moved_dom_outside W.graph W.shape hmv h6 hcp0).2 (.inl ⟨h4, h6⟩))
    · exact .inr ((moved_dom_outside W.graph W.shape hmv h6 h6).2 (.inl ⟨h4, hcp0⟩))
  have hpnt : u'.IsNt p := by
    obtain ⟨a, ha⟩ := (isChild_live W.graph hpc).1
    cases a with
    | term x => exact absurd hpc (W.shape.term_leaf _ _ ⟨x, ha⟩)
    | nt x =>
      have hc := h8 p
      unfold content at hc
      rw [ha] at hc
      unfold IsNt
      rw [h.node]
      cases hb : t'.graph.node? p with
      | none => rw [hb] at hc; simp at hc
      | some b =>
        rw [hb] at hc
        cases b with
        | term y => simp [Node.replaceSpan] at hc
        | nt y => exact ⟨y, rfl⟩
  have hcp : ¬ u'.Dom c p := by
    rw [h.dom, moved_dom_inside W.graph W.shape hmv h6 Dom.refl]; exact hcp0
  have hsib : q = p ∨ ∃ s, s ≠ c ∧ u'.IsChild q s := by
    by_cases hqp : q = p
    · exact .inl hqp
    · obtain ⟨s, hs⟩ := W.shape.nt_child q h3
      have hne : s ≠ c := by rintro rfl; exact hqp (W.shape.isChild_unique hs hpc)
      exact .inr ⟨s, hne, by rw [h.isChild]; exact (hmv q s).2 (.inl ⟨hs, hne⟩)⟩
  obtain ⟨u1, e', k1, k2, k3, k4, k5, k6, k7, k8, k9, k10, k11, k12, k13, _⟩ :=
    reattachPrimary_spec Wu hr hrw hpnt (by rw [hr2]; exact hcp) (by rw [hr1, hr2]; exact hsib)
  have W1 : u1.WF := ⟨k2, k3, k4, k13 (by rw [hr1]; exact hdom), k5⟩
  have hre : u'.reattachNode p r.id = .ok (u1, .ok (e', r.w)) := by
    have hne : r.tgt ≠ p := by rw [hr2]; rintro rfl; exact hcp Dom.refl
    unfold reattachNode
    rw [Graph.contains_iff.2 hpnt.live', (Graph.edge?_eq Wu.graph).2 ⟨hr, rfl⟩]
    simp only [Res.assert_true, Res.ok_bind, Res.ofOption_some, if_neg hne]
    cases hw' : r.w with
    | primary l => rw [hw'] at k1; exact k1
    | secondary l => rw [hw'] at hrw; simp [Edge.isPrimary] at hrw
  obtain ⟨lab, hlab⟩ : ∃ lab, w = .primary lab := by
    cases w with
    | primary lab => exact ⟨lab, rfl⟩
    | secondary lab => simp [Edge.isPrimary] at h2
  subst hlab
  have hset : u1.setEdgeLabel e' lab = .ok { u1 with graph := u1.graph.setEdge e' (.primary lab) } := by
    unfold setEdgeLabel edge
    have : u1.graph.edge? e' = some ⟨e', p, r.tgt, .primary none⟩ :=
      (Graph.edge?_eq k2).2 ⟨by rw [k7]; simp, rfl⟩
    rw [this]
    rfl
  obtain ⟨W2, hn2⟩ := setEdgeLabel_wf W1 hset
  have hne' : ∀ s ∈ u'.graph.edges.filter (fun s => s.id ≠ r.id), s.id ≠ e' := by
    have := k2.ids_nodup
    rw [k7, List.map_cons, List.nodup_cons] at this
    intro s hs he
    exact this.1 (List.mem_map.2 ⟨s, hs, he⟩)
  have hE2 : (u1.graph.setEdge e' (.primary lab)).edges =
      ⟨e', p, r.tgt, .primary lab⟩ :: u'.graph.edges.filter (fun s => s.id ≠ r.id) := by
    unfold Graph.setEdge
    simp only [k7, List.map_cons, if_true, List.cons.injEq, true_and]
    conv_rhs => rw [← List.map_id (u'.graph.edges.filter (fun s => s.id ≠ r.id))]
    apply List.map_congr_left
    intro s hs
    rw [if_neg (hne' s hs)]; rfl
  refine ⟨{ u1 with graph := u1.graph.setEdge e' (.primary lab) }, ?_, W2, ?_⟩
  · unfold undoMove
    simp only [hpar, Res.ofOption_some, Res.ok_bind, hre]
    rfl
  · have hterm : ∀ n i, ({ u1 with graph := u1.graph.setEdge e' (.primary lab) } : Tree).TermAt n i ↔ t.TermAt n i := by
      intro n i
      rw [← h9 n i]
      unfold TermAt
      rw [← h.node n]
      constructor
      · rintro ⟨x, hx, hsp⟩
        rw [hn2] at hx
        have hc := k11 n
        unfold content at hc
        rw [hx] at hc
        cases hu : u'.graph.node? n with
        | none => rw [hu] at hc; simp at hc
        | some nd =>
          cases nd with
          | nt y => rw [hu] at hc; simp [Node.replaceSpan] at hc
          | term y =>
            rw [k10 n y hu] at hx
            simp only [Option.some.injEq, Node.term.injEq] at hx
            exact ⟨y, rfl, hx ▸ hsp⟩
      · rintro ⟨x, hx, hsp⟩
        exact ⟨x, by rw [hn2]; exact k10 n x hx, hsp⟩
    refine regained_of W W2 (fun n => ?_) ?_ hterm (k8.trans (h.root.trans h10)) (k9.trans (h.nTerminals.trans h11))
    · have e1 : ({ u1 with graph := u1.graph.setEdge e' (.primary lab) } : Tree).content n = u1.content n := by
        unfold content; rw [hn2]
      rw [e1, k11 n, ← h8 n]
      unfold content; rw [h.node]
    · show ((u1.graph.setEdge e' (.primary lab)).edges.map edgeKey).Perm _
      rw [hE2]
      have p1 := (edges_perm Wu.graph hr).map edgeKey
      have p2 := (edges_perm W.graph h1).map edgeKey
      have p3 : (u'.graph.edges.map edgeKey).Perm (t'.graph.edges.map edgeKey) := h.edges
      rw [h7] at p3
      have p4 := p1.symm.trans p3
      simp only [List.map_cons] at p2 p4 ⊢
      have e1 : edgeKey r = edgeKey ⟨id', q, c, w'⟩ := by simp [edgeKey, hr1, hr2, hr3]
      rw [e1] at p4
      have e2 : edgeKey ⟨e', p, r.tgt, .primary lab⟩ = edgeKey ⟨id, p, c, .primary lab⟩ := by simp [edgeKey, hr2]
      rw [e2]
      exact (List.Perm.cons _ p4.cons_inv).trans p2.symm

/-- Taking back one move. -/
theorem undoMove_spec (W : t.WF) {m : Move} (hm : Lowered t t' m) (Wu : u'.WF) (h : Regained t' u') :
    ∃ u, u'.undoMove m = .ok u ∧ u.WF ∧ Regained t u := by
  obtain ⟨q, hq0⟩ := hm
  have hmv := hq0.moved W
  obtain ⟨id, id', h1, h2, h3, h4, h5, h6, _, h7, h8, h9, h10, h11⟩ := hq0
  exact undoMove_back W h1 h2 h3 (.inl h4) h6 h7 h2 hmv h8 h9 h10 h11 Wu h

/-- Taking back a list of moves. -/
theorem undo_spec {log : List Move} (h : Moves t log t') : ∀ {u' : Tree}, u'.WF → Regained t' u' →
    ∃ u, u'.undo log = .ok u ∧ u.WF ∧ Regained t u := by
  induction h with
  | nil => intro u' Wu hu; exact ⟨u', rfl, Wu, hu⟩
  | @snoc t1 t' log m _ W1 hm ih =>
    intro u' Wu hu
    obtain ⟨u1, k1, k2, k3⟩ := undoMove_spec W1 hm Wu hu
    obtain ⟨u, g1, g2, g3⟩ := ih k2 k3
    refine ⟨u, ?_, g2, g3⟩
    unfold undo at g1 ⊢
    rw [List.reverse_append, List.reverse_singleton, List.singleton_append, forM'_cons, k1]
    exact g1

end Tree
end Lumberjack
