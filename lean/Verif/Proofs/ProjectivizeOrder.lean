import Verif.Proofs.Projectivize
import Verif.Spec.Filled
import Verif.Spec.Forest

/-!
# Projectivization does not depend on the iteration order of hash sets
-/

namespace Lumberjack
namespace Tree

open Relation

variable {t t' u u' : Tree}

/-! ### Free node slots -/

theorem projectivityChange_graph {a b : Continuity} (h : t.projectivityChange a b = .ok t') :
    t'.graph = t.graph := by
  unfold projectivityChange at h
  split at h
  · simp only [Res.ok.injEq] at h; rw [← h]
  · obtain ⟨n, _, h⟩ := Res.bind_eq_ok.1 h
    simp only [Res.pure_eq, Res.ok.injEq] at h; rw [← h]
  · simp only [Res.ok.injEq] at h; rw [← h]

theorem removeCoverage_free {cov : List Nat} {n : Nat} (h : removeCoverage cov t n = .ok t') :
    t'.graph.freeNodes = t.graph.freeNodes := by
  unfold removeCoverage at h
  obtain ⟨nd, _, h⟩ := Res.bind_eq_ok.1 h
  obtain ⟨x, _, h⟩ := Res.bind_eq_ok.1 h
  obtain ⟨⟨sp, af⟩, _, h⟩ := Res.bind_eq_ok.1 h
  rw [projectivityChange_graph h]; rfl

theorem detachSpans_free {q p c : Nat} (h : t.detachSpans q p c = .ok t') :
    t'.graph.freeNodes = t.graph.freeNodes := by
  unfold detachSpans at h
  refine loopM_partial (fun _ => True) (fun b => b.graph.freeNodes = t.graph.freeNodes)
    (fun _ _ _ _ => trivial) ?_ _ _ _ trivial h
  rintro s b - hb
  split at hb
  · simp only at hb
    split at hb
    · obtain ⟨cn, _, hb⟩ := Res.bind_eq_ok.1 hb
      obtain ⟨t1, h1, hb⟩ := Res.bind_eq_ok.1 hb
      simp only [Res.pure_eq, Res.ok.injEq, Sum.inr.injEq] at hb
      subst hb
      exact forM'_partial (fun _ s => s.graph.freeNodes = t.graph.freeNodes)
        (fun a as s s' hs h => (removeCoverage_free h).trans hs) _ _ _ rfl h1
    · simp at hb
  · simp only [Res.ok.injEq, Sum.inr.injEq] at hb; rw [← hb]

theorem attachSpans_free {c : Nat} {cs : Span} (h : t.attachSpans c cs = .ok t') :
    t'.graph.freeNodes = t.graph.freeNodes := by
  unfold attachSpans at h
  refine loopM_partial (fun s => s.2.graph.freeNodes = t.graph.freeNodes)
    (fun b => b.graph.freeNodes = t.graph.freeNodes) ?_ ?_ _ _ _ rfl h
  · intro s s' hs hstep
    split at hstep
    · obtain ⟨nd, _, hstep⟩ := Res.bind_eq_ok.1 hstep
      split at hstep
      · simp [Res.pure_eq] at hstep
      · obtain ⟨x, _, hstep⟩ := Res.bind_eq_ok.1 hstep
        obtain ⟨sp, _, hstep⟩ := Res.bind_eq_ok.1 hstep
        obtain ⟨t1, h1, hstep⟩ := Res.bind_eq_ok.1 hstep
        simp only [Res.pure_eq, Res.ok.injEq, Sum.inl.injEq] at hstep
        subst hstep
        simp only
        rw [projectivityChange_graph h1]; exact hs
    · simp at hstep
  · intro s b hs hstep
    split at hstep
    · obtain ⟨nd, _, hstep⟩ := Res.bind_eq_ok.1 hstep
      split at hstep
      · simp only [Res.pure_eq, Res.ok.injEq, Sum.inr.injEq] at hstep
        rw [← hstep]; exact hs
      · obtain ⟨x, _, hstep⟩ := Res.bind_eq_ok.1 hstep
        obtain ⟨sp, _, hstep⟩ := Res.bind_eq_ok.1 hstep
        obtain ⟨t1, h1, hstep⟩ := Res.bind_eq_ok.1 hstep
        simp [Res.pure_eq] at hstep
    · simp only [Res.ok.injEq, Sum.inr.injEq] at hstep
      rw [← hstep]; exact hs

theorem addEdge_free {g g' : Graph} {a b e : Nat} {w : Edge} (h : g.addEdge a b w = .ok (g', e)) :
    g'.freeNodes = g.freeNodes := by
  unfold Graph.addEdge at h
  obtain ⟨_, _, h⟩ := Res.bind_eq_ok.1 h
  split at h <;> simp only [Res.pure_eq, Res.ok.injEq, Prod.mk.injEq] at h <;> rw [← h.1]

theorem removeEdge_free {g g' : Graph} {e : Nat} {w : Edge} (h : g.removeEdge e = some (g', w)) :
    g'.freeNodes = g.freeNodes := by
  unfold Graph.removeEdge at h
  split at h
  · simp only [Option.some.injEq, Prod.mk.injEq] at h; rw [← h.1]
  · simp at h

theorem reattachNode_free {q e : Nat} {r : Except Err (Nat × Edge)} (h : t.reattachNode q e = .ok (t', r)) :
    t'.graph.freeNodes = t.graph.freeNodes := by
  unfold reattachNode at h
  obtain ⟨_, _, h⟩ := Res.bind_eq_ok.1 h
  obtain ⟨r0, _, h⟩ := Res.bind_eq_ok.1 h
  split at h
  · simp only [Res.pure_eq, Res.ok.injEq, Prod.mk.injEq] at h; rw [h.1]
  · split at h
    · unfold reattachPrimary at h
      obtain ⟨r1, _, h⟩ := Res.bind_eq_ok.1 h
      obtain ⟨np, _, h⟩ := Res.bind_eq_ok.1 h
      split at h
      · simp only [Res.pure_eq, Res.ok.injEq, Prod.mk.injEq] at h; rw [h.1]
      split at h
      · simp only [Res.pure_eq, Res.ok.injEq, Prod.mk.injEq] at h; rw [h.1]
      obtain ⟨t1, h1, h⟩ := Res.bind_eq_ok.1 h
      obtain ⟨⟨g2, old⟩, h2, h⟩ := Res.bind_eq_ok.1 h
      obtain ⟨⟨g3, e'⟩, h3, h⟩ := Res.bind_eq_ok.1 h
      obtain ⟨cn, _, h⟩ := Res.bind_eq_ok.1 h
      obtain ⟨t4, h4, h⟩ := Res.bind_eq_ok.1 h
      simp only [Res.pure_eq, Res.ok.injEq, Prod.mk.injEq] at h
      rw [← h.1, attachSpans_free h4]
      exact (addEdge_free h3).trans ((removeEdge_free (Res.ofOption_eq_ok.1 h2)).trans (detachSpans_free h1))
    · obtain ⟨⟨t1, x⟩, h1, h⟩ := Res.bind_eq_ok.1 h
      simp only [Res.pure_eq, Res.ok.injEq, Prod.mk.injEq] at h
      unfold reattachSecondary at h1
      obtain ⟨r1, _, h1⟩ := Res.bind_eq_ok.1 h1
      obtain ⟨⟨g2, old⟩, h2, h1⟩ := Res.bind_eq_ok.1 h1
      obtain ⟨⟨g3, e'⟩, h3, h1⟩ := Res.bind_eq_ok.1 h1
      simp only [Res.pure_eq, Res.ok.injEq, Prod.mk.injEq] at h1
      rw [← h.1, ← h1.1]
      exact (addEdge_free h3).trans (removeEdge_free (Res.ofOption_eq_ok.1 h2))

theorem reattachSkipped_free {q T : Nat} {log log' : List Move}
    (h : t.reattachSkipped q T log = .ok (t', log')) : t'.graph.freeNodes = t.graph.freeNodes := by
  unfold reattachSkipped at h
  refine loopM_partial (fun _ => True) (fun b => b.1.graph.freeNodes = t.graph.freeNodes)
    (fun _ _ _ _ => trivial) ?_ _ _ _ trivial h
  rintro s b - hb
  split at hb
  · obtain ⟨pn, _, hb⟩ := Res.bind_eq_ok.1 hb
    obtain ⟨an, _, hb⟩ := Res.bind_eq_ok.1 hb
    split at hb
    · obtain ⟨⟨t1, r⟩, h1, hb⟩ := Res.bind_eq_ok.1 hb
      obtain ⟨⟨e', old⟩, _, hb⟩ := Res.bind_eq_ok.1 hb
      simp only [Res.pure_eq, Res.ok.injEq, Sum.inr.injEq] at hb
      rw [← hb]
      exact (reattachNode_free h1 :)
    · simp [Res.pure_eq] at hb
  · simp only [Res.ok.injEq, Sum.inr.injEq] at hb; rw [← hb]

theorem fillGaps_free {pick : Tree → Finset Nat → Option Nat} {terms : List Nat} {ap fuel : Nat}
    {s s' : Tree × List Move} (h : fillGaps pick terms ap fuel s = .ok s') :
    s'.1.graph.freeNodes = s.1.graph.freeNodes := by
  unfold fillGaps at h
  refine loopM_partial (fun x => x.1.graph.freeNodes = s.1.graph.freeNodes)
    (fun x => x.1.graph.freeNodes = s.1.graph.freeNodes) ?_ ?_ _ _ _ rfl h
  · intro x x' hx hs
    obtain ⟨an, _, hs⟩ := Res.bind_eq_ok.1 hs
    split at hs
    · obtain ⟨T, _, hs⟩ := Res.bind_eq_ok.1 hs
      obtain ⟨⟨t1, l1⟩, h1, hs⟩ := Res.bind_eq_ok.1 hs
      simp only [Res.pure_eq, Res.ok.injEq, Sum.inl.injEq] at hs
      rw [← hs]; exact (reattachSkipped_free h1).trans hx
    · simp [Res.pure_eq] at hs
  · intro x x' hx hs
    obtain ⟨an, _, hs⟩ := Res.bind_eq_ok.1 hs
    split at hs
    · obtain ⟨T, _, hs⟩ := Res.bind_eq_ok.1 hs
      obtain ⟨⟨t1, l1⟩, h1, hs⟩ := Res.bind_eq_ok.1 hs
      simp [Res.pure_eq] at hs
    · simp only [Res.pure_eq, Res.ok.injEq, Sum.inr.injEq] at hs
      rw [← hs]; exact hx

/-! ### The traversal -/

/-- The traversal looks at the edges out of undiscovered nodes only. -/
theorem dfsPost_loop_congr {g g' : Graph} : ∀ (k : Nat) (d : DfsPost),
    (∀ x, x ∉ d.discovered → g.primaryNeighbors x = g'.primaryNeighbors x) →
    loopM (DfsPost.step g) k d = loopM (DfsPost.step g') k d := by
  intro k
  induction k with
  | zero => intro d _; rfl
  | succ k ih =>
    intro d h
    have hstep : DfsPost.step g d = DfsPost.step g' d := by
      unfold DfsPost.step
      split
      · rfl
      · split
        · rename_i hx; rw [h _ hx]
        · rfl
    unfold loopM
    rw [hstep]
    split
    · rename_i d' hd
      refine ih d' fun x hx => h x fun hx' => hx ?_
      unfold DfsPost.step at hd
      split at hd
      · simp at hd
      · split at hd
        · simp only [Res.ok.injEq, Sum.inl.injEq] at hd
          rw [← hd]; exact Finset.mem_insert_of_mem hx'
        · split at hd
          · simp at hd
          · simp only [Res.ok.injEq, Sum.inl.injEq] at hd
            rw [← hd]; exact hx'
    all_goals rfl

theorem dfsPost_next_congr {g g' : Graph} {d : DfsPost} {a b : Option Nat × DfsPost}
    (h : ∀ x, x ∉ d.discovered → g.primaryNeighbors x = g'.primaryNeighbors x)
    (h1 : d.next g = .ok a) (h2 : d.next g' = .ok b) : a = b := by
  unfold DfsPost.next at h1 h2
  have h1' := loopM_mono h1 (max (DfsPost.fuel g d) (DfsPost.fuel g' d)) (le_max_left _ _)
  have h2' := loopM_mono h2 (max (DfsPost.fuel g d) (DfsPost.fuel g' d)) (le_max_right _ _)
  rw [dfsPost_loop_congr _ d h, h2'] at h1'
  simpa using h1'.symm

theorem dfsPost_next_sub {g : Graph} {d : DfsPost} {a : Option Nat × DfsPost} (h : d.next g = .ok a)
    {x : Nat} (hx : x ∈ d.discovered) : x ∈ a.2.discovered := by
  unfold DfsPost.next at h
  refine loopM_partial (fun s => x ∈ s.discovered) (fun b => x ∈ b.2.discovered) ?_ ?_ _ _ _ hx h
  · intro s s' hs hd
    unfold DfsPost.step at hd
    split at hd
    · simp at hd
    · split at hd
      · simp only [Res.ok.injEq, Sum.inl.injEq] at hd
        rw [← hd]; exact Finset.mem_insert_of_mem hs
      · split at hd
        · simp at hd
        · simp only [Res.ok.injEq, Sum.inl.injEq] at hd
          rw [← hd]; exact hs
  · intro s s' hs hd
    unfold DfsPost.step at hd
    split at hd
    · simp only [Res.ok.injEq, Sum.inr.injEq] at hd
      rw [← hd]; exact hs
    · split at hd
      · simp at hd
      · split at hd
        · simp only [Res.ok.injEq, Sum.inr.injEq] at hd
          rw [← hd]; exact hs
        · simp at hd

/-! ### One node's segment of reattachments -/

/-- The source and content of the edges into a node. -/
def into (t : Tree) (c : Nat) : List (Nat × Edge) := (t.graph.inEdges c).map fun r => (r.src, r.w)

theorem mem_into {c a : Nat} {w : Edge} :
    (a, w) ∈ t.into c ↔ ∃ id, (⟨id, a, c, w⟩ : EdgeRec) ∈ t.graph.edges := by
  unfold into Graph.inEdges
  simp only [List.mem_map, List.mem_filter, decide_eq_true_eq, Prod.mk.injEq]
  constructor
  · rintro ⟨⟨id, s, g, w'⟩, ⟨h1, h2⟩, h3, h4⟩
    simp only at h2 h3 h4
    subst h2 h3 h4
    exact ⟨id, h1⟩
  · rintro ⟨id, h⟩
    exact ⟨_, ⟨h, rfl⟩, rfl, rfl⟩

theorem isChild_iff_into {a c : Nat} : t.IsChild a c ↔ ∃ w, (a, w) ∈ t.into c ∧ w.isPrimary = true := by
  simp only [mem_into]
  constructor
  · rintro ⟨⟨id, s, g, w⟩, h1, h2, h3, h4⟩
    simp only at h2 h3 h4
    subst h2 h3
    exact ⟨w, ⟨id, h1⟩, h4⟩
  · rintro ⟨w, ⟨id, h⟩, hw⟩
    exact ⟨_, h, rfl, rfl, hw⟩

theorem LoweredTo.moved {q : Nat} {m : Move} (W : t.WF) (h : LoweredTo q t t' m) :
    Moved t.IsChild t'.IsChild m.2.2 q := by
  obtain ⟨id, id', h1, h2, _, _, _, _, _, h3, _⟩ := h
  intro a b
  unfold IsChild Graph.IsChild
  simp only [h3, List.mem_cons, List.mem_filter, decide_eq_true_eq]
  constructor
  · rintro ⟨r, rfl | ⟨hr, hid⟩, g1, g2, g3⟩
    · exact .inr ⟨g1.symm, g2.symm⟩
    · refine .inl ⟨⟨r, hr, g1, g2, g3⟩, ?_⟩
      rintro rfl
      exact hid (by rw [W.shape.unique r hr _ h1 g2 g3 h2])
  · rintro (⟨⟨r, hr, g1, g2, g3⟩, hb⟩ | ⟨rfl, rfl⟩)
    · refine ⟨r, .inr ⟨hr, fun e => hb ?_⟩, g1, g2, g3⟩
      rw [← g2, edge_eq_of_id W.graph hr h1 e]
    · exact ⟨_, .inl rfl, rfl, rfl, h2⟩

/-- The effect of a move on the edges into each node. -/
theorem LoweredTo.into_eq {q : Nat} {m : Move} (W : t.WF) (h : LoweredTo q t t' m) (c : Nat) :
    t'.into c = if c = m.2.2 then (q, m.2.1) :: (t.into c).filter (fun x => !x.2.isPrimary) else t.into c := by
  obtain ⟨id, id', h1, h2, _, _, _, _, _, h3, _⟩ := h
  unfold into Graph.inEdges
  rw [h3]
  split
  · rename_i hc
    subst hc
    rw [List.filter_cons_of_pos (by simp)]
    simp only [List.map_cons, List.cons.injEq, true_and]
    rw [List.filter_map]
    congr 1
    rw [List.filter_filter, List.filter_filter]
    apply List.filter_congr
    intro r hr
    by_cases e : r.tgt = m.2.2
    · by_cases hid : r.id = id
      · have := edge_eq_of_id W.graph hr h1 hid
        subst this
        simp [h2]
      · have : r.w.isPrimary = false := by
          rw [← Bool.not_eq_true]
          intro hp
          exact hid (by rw [W.shape.unique r hr _ h1 e hp h2])
        simp [e, hid, this]
    · simp [e]
  · rename_i hc
    rw [List.filter_cons_of_neg (by simpa using Ne.symm hc), List.filter_filter]
    congr 1
    apply List.filter_congr
    intro r hr
    by_cases hid : r.id = id
    · have := edge_eq_of_id W.graph hr h1 hid
      subst this
      simp [Ne.symm hc]
    · simp [hid]

/-- The effect of a move on the edges out of nodes not above the new parent. -/
theorem LoweredTo.out_eq {q : Nat} {m : Move} (W : t.WF) (h : LoweredTo q t t' m) {x : Nat}
    (hx : ¬ t.Dom x q) : t'.graph.outEdges x = t.graph.outEdges x := by
  obtain ⟨id, id', h1, h2, _, h4, _, _, _, h3, _⟩ := h
  unfold Graph.outEdges
  have hxq : q ≠ x := by rintro rfl; exact hx Dom.refl
  have hxp : m.1 ≠ x := by rintro rfl; exact hx h4
  rw [h3, List.filter_cons_of_neg (by simpa using hxq), List.filter_filter]
  apply List.filter_congr
  intro r hr
  by_cases hid : r.id = id
  · have := edge_eq_of_id W.graph hr h1 hid
    subst this
    simp [hxp]
  · simp [hid]

theorem Side.disjoint (W : t.WF) {q c i : Nat} (h : t.Side q c) (h1 : t.Covers c i) : ¬ t.Covers q i := by
  rintro ⟨m, m1, m2⟩
  obtain ⟨m', m3, m4⟩ := h1
  obtain rfl := W.sentence.inj _ _ _ m2 m4
  obtain ⟨p, hp, hpq, hne, hcq⟩ := h
  rcases W.shape.dom_linear m1 m3 with h | h
  · rcases h.cases_parent with e | ⟨d, hd, hdc⟩
    · subst e; exact hcq Dom.refl
    · rw [W.shape.isChild_unique hdc hp] at hd
      exact hne (W.shape.dom_antisymm W.graph hpq hd)
  · exact hcq h

theorem Side.eq (W : t.WF) {q c c' i : Nat} (h : t.Side q c) (h' : t.Side q c') (h1 : t.Covers c i)
    (h2 : t.Covers c' i) : c = c' := by
  obtain ⟨m, m1, m2⟩ := h1
  obtain ⟨m', m3, m4⟩ := h2
  obtain rfl := W.sentence.inj _ _ _ m2 m4
  obtain ⟨p, hp, hpq, _, hcq⟩ := h
  obtain ⟨p', hp', hpq', _, hcq'⟩ := h'
  rcases W.shape.dom_linear m1 m3 with h | h
  · rcases h.cases_parent with e | ⟨d, hd, hdc⟩
    · exact e.symm
    · rw [W.shape.isChild_unique hdc hp'] at hd
      exact absurd (hd.trans hpq') hcq
  · rcases h.cases_parent with e | ⟨d, hd, hdc⟩
    · exact e
    · rw [W.shape.isChild_unique hdc hp] at hd
      exact absurd (hd.trans hpq) hcq'

/-- The state of a segment of moves to `q`. -/
structure Segment (q : Nat) (t : Tree) (l : List Move) (t' : Tree) : Prop where
  side : ∀ m ∈ l, t.Side q m.2.2
  entry : ∀ m ∈ l, (m.1, m.2.1) ∈ t.into m.2.2 ∧ m.2.1.isPrimary = true
  nodup : (l.map (·.2.2)).Nodup
  into_kept : ∀ c, c ∉ l.map (·.2.2) → t'.into c = t.into c
  into_moved : ∀ m ∈ l, t'.into m.2.2 = (q, m.2.1) :: (t.into m.2.2).filter (fun x => !x.2.isPrimary)
  above : ∀ x, t'.Dom x q ↔ t.Dom x q
  other : ∀ n i, ¬ t.Dom n q → (t'.Covers n i ↔ t.Covers n i)
  covers : ∀ i, t'.Covers q i ↔ t.Covers q i ∨ ∃ m ∈ l, t.Covers m.2.2 i
  out : ∀ x, ¬ t.Dom x q → t'.graph.outEdges x = t.graph.outEdges x
  content : ∀ n, t'.content n = t.content n
  termAt : ∀ n i, t'.TermAt n i ↔ t.TermAt n i
  root : t'.root = t.root
  nTerm : t'.nTerminals = t.nTerminals

theorem Segment.nil (q : Nat) (t : Tree) : Segment q t [] t := by
  constructor <;> simp

theorem Segment.lift {q : Nat} {l : List Move} (h : Segment q t l t') {c p : Nat}
    {w : Edge} (h1 : (p, w) ∈ t'.into c) (hw : w.isPrimary = true) (h2 : t'.Dom p q) (h3 : q ≠ p)
    (h4 : ¬ t'.Dom c q) : c ∉ l.map (·.2.2) ∧ (p, w) ∈ t.into c ∧ t.Side q c := by
  have hc : c ∉ l.map (·.2.2) := by
    intro hm
    obtain ⟨m, hml, rfl⟩ := List.mem_map.1 hm
    rw [h.into_moved m hml] at h1
    rcases List.mem_cons.1 h1 with e | e
    · simp only [Prod.mk.injEq] at e; exact h3 e.1.symm
    · rw [List.mem_filter] at e; simp [hw] at e
  rw [h.into_kept c hc] at h1
  exact ⟨hc, h1, p, isChild_iff_into.2 ⟨w, h1, hw⟩, (h.above p).1 h2, h3.symm, fun h' => h4 ((h.above c).2 h')⟩

theorem Segment.snoc {t1 : Tree} (W1 : t1.WF) {q : Nat} {l : List Move} {m : Move}
    (h : Segment q t l t1) (hm : LoweredTo q t1 t' m) : Segment q t (l ++ [m]) t' := by
  have hmv := hm.moved W1
  have hinto := hm.into_eq W1
  have hout := fun x hx => hm.out_eq W1 (x := x) hx
  obtain ⟨id, id', e1, e2, e3, e4, e5, e6, e7, e8, e9, e10, e11, e12⟩ := hm
  have hent : (m.1, m.2.1) ∈ t1.into m.2.2 := mem_into.2 ⟨id, e1⟩
  obtain ⟨hc, hent0, hside⟩ := h.lift hent e2 e4 e5 e6
  have hpc : t1.IsChild m.1 m.2.2 := ⟨_, e1, rfl, rfl, e2⟩
  have hcq : ¬ t.Dom m.2.2 q := fun h' => e6 ((h.above _).2 h')
  refine ⟨?_, ?_, ?_, ?_, ?_, ?_, ?_, ?_, ?_, fun n => (e9 n).trans (h.content n),
    fun n i => (e10 n i).trans (h.termAt n i), e11.trans h.root, e12.trans h.nTerm⟩
  · intro m' hm'
    rcases List.mem_append.1 hm' with hm' | hm'
    · exact h.side m' hm'
    · rw [List.mem_singleton.1 hm']; exact hside
  · intro m' hm'
    rcases List.mem_append.1 hm' with hm' | hm'
    · exact h.entry m' hm'
    · rw [List.mem_singleton.1 hm']; exact ⟨hent0, e2⟩
  · rw [List.map_append, List.nodup_append]
    refine ⟨h.nodup, by simp, ?_⟩
    intro a ha b hb
    simp only [List.map_cons, List.map_nil, List.mem_singleton] at hb
    subst hb
    rintro rfl
    exact hc ha
  · intro c hcn
    simp only [List.map_append, List.map_cons, List.map_nil, List.mem_append, List.mem_singleton, not_or] at hcn
    rw [hinto c, if_neg hcn.2, h.into_kept c hcn.1]
  · intro m' hm'
    rcases List.mem_append.1 hm' with hm' | hm'
    · have : m'.2.2 ≠ m.2.2 := fun e => hc (e ▸ List.mem_map.2 ⟨m', hm', rfl⟩)
      rw [hinto, if_neg this, h.into_moved m' hm']
    · rw [List.mem_singleton.1 hm', hinto, if_pos rfl, h.into_kept _ hc]
  · intro x
    rw [← h.above x]
    by_cases hx : t1.Dom m.2.2 x
    · exact moved_dom_inside W1.graph W1.shape hmv e6 hx
    · rw [moved_dom_outside W1.graph W1.shape hmv e6 hx]
      simp [e6]
  · intro n i hn
    rw [moved_covers_other W1.graph W1.shape hpc e4 hmv e6 e10 (fun h' => hn ((h.above n).1 h')), h.other n i hn]
  · intro i
    rw [moved_covers_up W1.graph W1.shape hmv e6 e10 Dom.refl, h.covers, h.other _ _ hcq]
    simp only [List.mem_append, List.mem_singleton, or_and_right, exists_or, exists_eq_left, or_assoc]
  · intro x hx
    rw [hout x (fun h' => hx ((h.above x).1 h')), h.out x hx]

theorem MovesTo.segment {q : Nat} {l : List Move} (h : MovesTo q t l t') : Segment q t l t' := by
  induction h with
  | nil => exact Segment.nil q t
  | snoc _ W1 hm ih => exact ih.snoc W1 hm

/-- Two trees with the same nodes and the same edges. -/
theorem Twin.isChild (h : Twin t u) : t.IsChild = u.IsChild := by
  funext a b
  rw [eq_iff_iff, isChild_iff_into, isChild_iff_into]
  rw [show t.into b = u.into b from h.into b]

theorem Twin.dom (h : Twin t u) : t.Dom = u.Dom := by unfold Dom; rw [h.isChild]

theorem Twin.node? (h : Twin t u) (n : Nat) : t.graph.node? n = u.graph.node? n := by
  unfold Graph.node?; rw [h.nodes]

theorem Twin.termAt (h : Twin t u) (n i : Nat) : t.TermAt n i ↔ u.TermAt n i := by
  unfold TermAt; rw [h.node?]

theorem Twin.covers (h : Twin t u) (n i : Nat) : t.Covers n i ↔ u.Covers n i := by
  unfold Covers; simp only [h.dom, h.termAt]

theorem Twin.side (h : Twin t u) (q c : Nat) : t.Side q c ↔ u.Side q c := by
  unfold Side; simp only [h.dom, h.isChild]

theorem Twin.refl (t : Tree) : Twin t t := ⟨rfl, rfl, fun _ => rfl, rfl, rfl, rfl⟩

theorem Twin.symm (h : Twin t u) : Twin u t :=
  ⟨h.nodes.symm, h.free.symm, fun c => (h.into c).symm, h.root.symm, h.nTerminals.symm, h.numDisc.symm⟩

theorem Twin.inLabel (h : Twin t u) (n : Nat) : t.inLabel n = u.inLabel n := by
  have key : ∀ t : Tree, t.edgeLabel n = ((t.into n).find? (fun x => x.2.isPrimary)).map (·.2) := by
    intro t
    unfold edgeLabel Tree.into Graph.inEdges
    rw [List.find?_map, List.find?_filter, Option.map_map]
    congr 2
    funext r
    simp [Function.comp]
  unfold Tree.inLabel
  rw [key, key, show t.into n = u.into n from h.into n]

theorem Twin.kids (h : Twin t u) (n : Nat) (ks : List Nat) : t.Kids n ks ↔ u.Kids n ks := by
  unfold Kids startOf
  simp only [h.isChild, h.node?]

theorem Twin.rep (h : Twin t u) (f : Forest) : ∀ ids, t.Rep ids f ↔ u.Rep ids f := by
  induction f with
  | nil => intro ids; exact Iff.rfl
  | leaf e x r ih => intro ids; simp only [Rep, h.node?, h.inLabel, ih]
  | node e x k r ih1 ih2 => intro ids; simp only [Rep, h.node?, h.inLabel, h.kids, ih1, ih2]

theorem Twin.is (h : Twin t u) (f : Forest) : t.Is f ↔ u.Is f := by
  unfold Is; rw [h.root]; exact h.rep f _

/-- Every move of one run is a move of another run that ends without a gap. -/
theorem MovesTo.sub (Wu : u.WF) (hT : Twin t u) {q : Nat} {l l2 : List Move}
    (h : MovesTo q t l t') (h2 : Segment q u l2 u') (hg : u'.Gapless q) : ∀ m ∈ l, m ∈ l2 := by
  induction h with
  | nil => simp
  | @snoc t1 t'' l m h W1 hm ih =>
    have hs := h.segment
    intro m' hm'
    rcases List.mem_append.1 hm' with hm' | hm'
    · exact ih m' hm'
    rw [List.mem_singleton.1 hm']
    have hs' := hs.snoc W1 hm
    obtain ⟨id, id', e1, e2, e3, e4, e5, e6, ⟨i, k, j, hik, hkj, hi, hj, _, hk⟩, _⟩ := hm
    have hside : u.Side q m.2.2 := (hT.side _ _).1 (hs'.side m (by simp))
    have hsub : ∀ i, t1.Covers q i → u'.Covers q i := by
      intro i hi
      rw [h2.covers]
      rcases (hs.covers i).1 hi with hi | ⟨m1, h1, h1'⟩
      · exact .inl ((hT.covers _ _).1 hi)
      · exact .inr ⟨m1, ih m1 h1, (hT.covers _ _).1 h1'⟩
    have hk' : u.Covers m.2.2 k := by
      rw [hs.other _ _ (fun h' => e6 ((hs.above _).2 h'))] at hk
      exact (hT.covers _ _).1 hk
    have hcov := hg i j k (hsub i hi) (hsub j hj) (by omega) (by omega)
    rcases (h2.covers k).1 hcov with hcov | ⟨m2, h3, h4⟩
    · exact absurd hcov (hside.disjoint Wu hk')
    · have hc := hside.eq Wu (h2.side m2 h3) hk' h4
      obtain ⟨f1, f2⟩ := hs'.entry m (by simp)
      obtain ⟨f3, f4⟩ := h2.entry m2 h3
      rw [show t.into m.2.2 = u.into m.2.2 from hT.into _, hc] at f1
      obtain ⟨i1, f1⟩ := mem_into.1 f1
      obtain ⟨i2, f3⟩ := mem_into.1 f3
      have := Wu.shape.unique _ f1 _ f3 rfl f2 f4
      simp only [EdgeRec.mk.injEq] at this
      obtain ⟨_, g1, _, g2⟩ := this
      have : m = m2 := by
        obtain ⟨a, b, c⟩ := m
        obtain ⟨a', b', c'⟩ := m2
        simp only at g1 g2 hc
        rw [g1, g2, hc]
      rw [this]; exact h3

theorem filter_of_nodup {l : List Move} (h : (l.map (·.2.2)).Nodup) {m : Move} (hm : m ∈ l) :
    l.filter (fun x => x.2.2 = m.2.2) = [m] := by
  induction l with
  | nil => simp at hm
  | cons a l ih =>
    rw [List.map_cons, List.nodup_cons] at h
    rcases List.mem_cons.1 hm with rfl | hm
    · rw [List.filter_cons_of_pos (by simp)]
      rw [List.filter_eq_nil_iff.2]
      intro x hx
      simp only [decide_eq_true_eq]
      exact fun e => h.1 (List.mem_map.2 ⟨x, hx, e⟩)
    · rw [List.filter_cons_of_neg, ih h.2 hm]
      simp only [decide_eq_true_eq]
      exact fun e => h.1 (List.mem_map.2 ⟨m, hm, e.symm⟩)

theorem node_ext {a b : Node} (h : a.replaceSpan (Span.ofIdx 0) = b.replaceSpan (Span.ofIdx 0))
    (hs : a.span = b.span) : a = b := by
  cases a with
  | term x =>
    cases b with
    | term y =>
      obtain ⟨_, _, _, _, _⟩ := x
      obtain ⟨_, _, _, _, _⟩ := y
      simp_all [Node.replaceSpan, Node.span]
    | nt y => simp [Node.replaceSpan] at h
  | nt x =>
    cases b with
    | term y => simp [Node.replaceSpan] at h
    | nt y =>
      obtain ⟨_, _, _, _⟩ := x
      obtain ⟨_, _, _, _⟩ := y
      simp_all [Node.replaceSpan, Node.span]

/-- Two well-formed trees with the same edges, contents and positions have the same nodes. -/
theorem twin_of (W : t.WF) (Wu : u.WF) (hlen : t.graph.nodes.length = u.graph.nodes.length)
    (hfree : t.graph.freeNodes = u.graph.freeNodes) (hinto : ∀ c, t.into c = u.into c)
    (hcont : ∀ n, t.content n = u.content n) (hterm : ∀ n i, t.TermAt n i ↔ u.TermAt n i)
    (hroot : t.root = u.root) (hnt : t.nTerminals = u.nTerminals) : Twin t u := by
  have hch : t.IsChild = u.IsChild := by
    funext a b
    rw [eq_iff_iff, isChild_iff_into, isChild_iff_into, hinto]
  have hcov : ∀ n i, t.Covers n i ↔ u.Covers n i := by
    intro n i
    unfold Covers Dom
    simp only [hch, hterm]
  have hnode : ∀ n, t.graph.node? n = u.graph.node? n := by
    intro n
    have hc := hcont n
    unfold content at hc
    cases h1 : t.graph.node? n with
    | none => rw [h1] at hc; exact (by simpa using hc.symm : u.graph.node? n = none).symm
    | some a =>
      rw [h1] at hc
      cases h2 : u.graph.node? n with
      | none => rw [h2] at hc; simp at hc
      | some b =>
        rw [h2] at hc
        simp only [Option.map_some, Option.some.injEq] at hc
        obtain ⟨v1, c1⟩ := W.span_spec h1
        obtain ⟨v2, c2⟩ := Wu.span_spec h2
        rw [node_ext hc (v1.ext v2 (by ext i; rw [c1, c2, hcov]))]
  have hnodes : t.graph.nodes = u.graph.nodes := by
    apply List.ext_getElem? 
    intro n
    have := hnode n
    unfold Graph.node? at this
    by_cases hn : n < t.graph.nodes.length
    · rw [List.getElem?_eq_getElem hn, List.getElem?_eq_getElem (hlen ▸ hn)] at this ⊢
      simpa using this
    · rw [List.getElem?_eq_none (by omega), List.getElem?_eq_none (by omega)]
  refine ⟨hnodes, hfree, hinto, hroot, hnt, ?_⟩
  have h1 := W.count
  have h2 := Wu.count
  unfold CountOK at h1 h2
  rw [h1, h2, hlen]
  congr 1
  ext n
  simp only [Finset.mem_filter]
  rw [show t.Disc n ↔ u.Disc n from by unfold Disc; rw [hnode]]

/-- Two runs filling the gaps of `q` from the same tree. -/
theorem segments_agree (W : t.WF) (Wu : u.WF) (W' : t'.WF) (Wu' : u'.WF) (hT : Twin t u) {q : Nat}
    {l l2 : List Move} (h : MovesTo q t l t') (h2 : MovesTo q u l2 u') (hg : t'.Gapless q)
    (hg2 : u'.Gapless q) (hl : t'.graph.nodes.length = u'.graph.nodes.length)
    (hf : t'.graph.freeNodes = u'.graph.freeNodes) :
    Twin t' u' ∧ ∀ c, l.filter (fun x => x.2.2 = c) = l2.filter (fun x => x.2.2 = c) := by
  have s1 := h.segment
  have s2 := h2.segment
  have hmem : ∀ m, m ∈ l ↔ m ∈ l2 := fun m =>
    ⟨h.sub Wu hT s2 hg2 m, h2.sub W hT.symm s1 hg m⟩
  have hnot : ∀ c, c ∉ l.map (·.2.2) ↔ c ∉ l2.map (·.2.2) := by
    intro c; simp only [List.mem_map, hmem]
  constructor
  · refine twin_of W' Wu' hl hf ?_ ?_ ?_ ?_ ?_
    · intro c
      by_cases hc : c ∈ l.map (·.2.2)
      · obtain ⟨m, hm, rfl⟩ := List.mem_map.1 hc
        rw [s1.into_moved m hm, s2.into_moved m ((hmem m).1 hm),
          show t.into m.2.2 = u.into m.2.2 from hT.into _]
      · rw [s1.into_kept c hc, s2.into_kept c ((hnot c).1 hc)]
        exact hT.into c
    · intro n
      rw [s1.content, s2.content]
      unfold content
      rw [hT.node?]
    · intro n i
      rw [s1.termAt, s2.termAt, hT.termAt]
    · rw [s1.root, s2.root, hT.root]
    · rw [s1.nTerm, s2.nTerm, hT.nTerminals]
  · intro c
    by_cases hc : c ∈ l.map (·.2.2)
    · obtain ⟨m, hm, rfl⟩ := List.mem_map.1 hc
      rw [filter_of_nodup s1.nodup hm, filter_of_nodup s2.nodup ((hmem m).1 hm)]
    · have hnil : ∀ l : List Move, c ∉ l.map (·.2.2) → l.filter (fun x => x.2.2 = c) = [] := by
        intro l hl
        rw [List.filter_eq_nil_iff]
        intro x hx
        simp only [decide_eq_true_eq]
        exact fun e => hl (List.mem_map.2 ⟨x, hx, e⟩)
      rw [hnil _ hc, hnil _ ((hnot c).1 hc)]

/-- Two loops that run in step. -/
theorem loopM_rel {σ τ β γ : Type} {f : σ → Res (σ ⊕ β)} {g : τ → Res (τ ⊕ γ)} (R : σ → τ → Prop)
    (P : β → γ → Prop)
    (h : ∀ s s', R s s' → (∃ a b, f s = .ok (.inl a) ∧ g s' = .ok (.inl b) ∧ R a b) ∨
      (∃ a b, f s = .ok (.inr a) ∧ g s' = .ok (.inr b) ∧ P a b)) :
    ∀ (k : Nat) (s : σ) (s' : τ) (a : β) (b : γ), R s s' → loopM f k s = .ok a → loopM g k s' = .ok b → P a b := by
  intro k
  induction k with
  | zero => intro s s' a b _ h1; simp [loopM] at h1
  | succ k ih =>
    intro s s' a b hR h1 h2
    rcases h s s' hR with ⟨x, y, hf, hg, hxy⟩ | ⟨x, y, hf, hg, hxy⟩
    · rw [loopM_succ_inl hf] at h1
      rw [loopM_succ_inl hg] at h2
      exact ih x y a b hxy h1 h2
    · rw [loopM_succ_inr hf] at h1
      rw [loopM_succ_inr hg] at h2
      simp only [Res.ok.injEq] at h1 h2
      subst h1 h2
      exact hxy

/-- Two runs of `projectivize` with different iteration orders. -/
theorem projectivize_order {pick pick' : Tree → Finset Nat → Option Nat} (hp : IsOrder pick)
    (hp' : IsOrder pick') (W : t.WF) {log log' : List Move} (h : t.projectivize pick = .ok (t', some log))
    (h' : t.projectivize pick' = .ok (u', some log')) :
    Twin t' u' ∧ ∀ c, log.filter (fun x => x.2.2 = c) = log'.filter (fun x => x.2.2 = c) := by
  have hterm : ∀ n i, t.TermAt n i → (t.sortIndices t.terminals)[i]? = some n := fun n i h =>
    sorted_terminals_get W.sentence h
  unfold projectivize at h h'
  by_cases hpr : t.isProjective = true
  · simp [hpr, Res.pure_eq] at h
  simp only [hpr, Bool.not_false, if_true] at h h'
  obtain ⟨⟨t1, l1⟩, h1, h⟩ := Res.bind_eq_ok.1 h
  obtain ⟨⟨t2, l2⟩, h2, h'⟩ := Res.bind_eq_ok.1 h'
  simp only [Res.pure_eq, Res.ok.injEq, Prod.mk.injEq, Option.some.injEq] at h h'
  obtain ⟨rfl, rfl⟩ := h
  obtain ⟨rfl, rfl⟩ := h'
  refine loopM_rel (f := fun (s : (Tree × List Move) × DfsPost) => do
      let (item, d) ← s.2.next s.1.1.graph
      match item with
      | some ap => do
        let s' ← fillGaps pick (t.sortIndices t.terminals) ap (t.nTerminals + 1) s.1
        if s'.1.isProjective then return .inr s' else return .inl (s', d)
      | none => return .inr s.1)
    (g := fun (s : (Tree × List Move) × DfsPost) => do
      let (item, d) ← s.2.next s.1.1.graph
      match item with
      | some ap => do
        let s' ← fillGaps pick' (t.sortIndices t.terminals) ap (t.nTerminals + 1) s.1
        if s'.1.isProjective then return .inr s' else return .inl (s', d)
      | none => return .inr s.1)
    (fun a b => a.2 = b.2 ∧ Stage t a.1.1 a.1.2 a.2 ∧ Stage t b.1.1 b.1.2 b.2 ∧ Twin a.1.1 b.1.1 ∧
      (∀ c, a.1.2.filter (fun x => x.2.2 = c) = b.1.2.filter (fun x => x.2.2 = c)) ∧
      ∀ x, x ∉ a.2.discovered → a.1.1.graph.outEdges x = b.1.1.graph.outEdges x)
    (fun a b => Twin a.1 b.1 ∧ ∀ c, a.2.filter (fun x => x.2.2 = c) = b.2.filter (fun x => x.2.2 = c))
    ?_ _ _ _ _ _ ⟨rfl, ⟨.nil t, W, PInv.new W.shape, rfl, rfl, fun _ _ => Iff.rfl, fun _ => Iff.rfl⟩,
      ⟨.nil t, W, PInv.new W.shape, rfl, rfl, fun _ _ => Iff.rfl, fun _ => Iff.rfl⟩, Twin.refl t,
      fun _ => rfl, fun _ _ => rfl⟩ h1 h2
  rintro ⟨⟨a, la⟩, d⟩ ⟨⟨b, lb⟩, d2⟩ ⟨hd, X, Y, hT, hlog, hout⟩
  simp only at hd X Y hT hlog hout
  subst hd
  have Wa := X.wf
  have Wb := Y.wf
  rcases X.inv.next Wa.graph Wa.shape with ⟨x, d', k1, k2, k3, k4, k5, k6⟩ | ⟨d', k1, k2⟩
  · have k1' : d.next b.graph = .ok (some x, d') := by
      rcases Y.inv.next Wb.graph Wb.shape with ⟨y, d'', j1, _⟩ | ⟨d'', j1, _⟩
      · rw [j1, dfsPost_next_congr (fun x hx => by unfold Graph.primaryNeighbors; rw [hout x hx]) k1 j1]
      · rw [j1, dfsPost_next_congr (fun x hx => by unfold Graph.primaryNeighbors; rw [hout x hx]) k1 j1]
    have kb : PInv b d' := by
      rcases Y.inv.next Wb.graph Wb.shape with ⟨y, d'', j1, j2, _⟩ | ⟨d'', j1, _⟩
      · rw [k1'] at j1
        simp only [Res.ok.injEq, Prod.mk.injEq] at j1
        rw [j1.2]; exact j2
      · rw [k1'] at j1; simp at j1
    have X' : Stage t a la d' := ⟨X.moves, Wa, k2, X.len, X.nterm, X.termAt, X.live⟩
    have Y' : Stage t b lb d' := ⟨Y.moves, Wb, kb, Y.len, Y.nterm, Y.termAt, Y.live⟩
    have hx : x ∈ d'.finished := by rw [k5]; simp
    obtain ⟨a', la', g1, g2, g3, g4, la1, hla, ga⟩ := fillGaps_spec hp hterm X' hx
      (fuel := t.nTerminals + 1) (by have := X.nterm; omega)
    obtain ⟨b', lb', f1, f2, f3, f4, lb1, hlb, fb⟩ := fillGaps_spec hp' hterm Y' hx
      (fuel := t.nTerminals + 1) (by have := Y.nterm; omega)
    obtain ⟨hT', hl'⟩ := segments_agree Wa Wb g2.wf f2.wf hT ga fb g3 f3 (g2.len.trans f2.len.symm)
      ((fillGaps_free g1).trans (hT.free.trans (fillGaps_free f1).symm))
    have hlog' : ∀ c, la'.filter (fun x => x.2.2 = c) = lb'.filter (fun x => x.2.2 = c) := by
      intro c
      rw [hla, hlb, List.filter_append, List.filter_append, hlog c, hl' c]
    have hpq : b'.isProjective = a'.isProjective := by
      unfold isProjective; rw [hT'.numDisc]
    by_cases hpr' : a'.isProjective = true
    · right
      refine ⟨(a', la'), (b', lb'), ?_, ?_, hT', hlog'⟩
      · simp only [k1, Res.ok_bind, g1, hpr', if_true]; rfl
      · simp only [k1', Res.ok_bind, f1, hpq, hpr', if_true]; rfl
    · left
      refine ⟨((a', la'), d'), ((b', lb'), d'), ?_, ?_, rfl, g2, f2, hT', hlog', ?_⟩
      · simp only [k1, Res.ok_bind, g1, hpr']; rfl
      · simp only [k1', Res.ok_bind, f1, hpq, hpr']; rfl
      · intro y hy
        simp only at hy ⊢
        have hup : ∀ (s : Tree), PInv s d' → ∀ z, s.Dom z x → z ∈ d'.discovered := by
          intro s I z hz
          induction hz using ReflTransGen.head_induction_on with
          | refl => exact I.fin_sub x hx
          | @head a b hab _ ih => exact I.above b (.inr ih) a hab
        rw [(ga.segment).out y (fun h => hy (hup a k2 y h)),
          (fb.segment).out y (fun h => hy (hup b kb y h))]
        exact hout y fun h => hy (dfsPost_next_sub k1 h)
  · right
    have k1' : d.next b.graph = .ok (none, d') := by
      rcases Y.inv.next Wb.graph Wb.shape with ⟨y, d'', j1, _⟩ | ⟨d'', j1, _⟩
      · rw [j1, dfsPost_next_congr (fun x hx => by unfold Graph.primaryNeighbors; rw [hout x hx]) k1 j1]
      · rw [j1, dfsPost_next_congr (fun x hx => by unfold Graph.primaryNeighbors; rw [hout x hx]) k1 j1]
    refine ⟨(a, la), (b, lb), ?_, ?_, hT, hlog⟩
    · simp only [k1, Res.ok_bind]; rfl
    · simp only [k1', Res.ok_bind]; rfl

end Tree
end Lumberjack
