import Verif.Proofs.Remove
import Verif.Proofs.Unary

/-!
# Removing a terminal

On a well-formed tree the two repair steps of `remove_terminal` change nothing, since they run before
the node is removed.
-/

namespace Lumberjack
namespace Tree

variable {t t' : Tree}

theorem setNode_self {n : Nat} {nd : Node} (h : t.graph.node? n = some nd) : t.setNode n nd = t := by
  unfold setNode Graph.setNode
  have : t.graph.nodes.set n (some nd) = t.graph.nodes := by
    have h1 := Graph.node?_eq.1 h
    apply List.ext_getElem?
    intro k
    rw [List.getElem?_set]
    by_cases e : n = k
    · subst e
      rw [h1, if_pos rfl, if_pos (Graph.lt_of_node? h)]
    · rw [if_neg e]
  rw [this]

/-- A span edit that ends in right spans, starting from right spans, is the identity. -/
theorem SpanEdit.eq_self (h : SpanEdit t t') (W : t.WF) (W' : t'.WF) : t' = t := by
  have hnode : ∀ n, t'.graph.node? n = t.graph.node? n := by
    intro n
    cases hx : t.graph.node? n with
    | none => exact h.none n hx
    | some nd =>
      cases nd with
      | term x => exact h.term n x hx
      | nt x =>
        obtain ⟨sp, hsp⟩ := h.nt n x hx
        obtain ⟨v1, c1⟩ := W.span_spec hx
        obtain ⟨v2, c2⟩ := W'.span_spec hsp
        have : sp = x.span := by
          refine Span.Valid.ext v2 v1 ?_
          ext i
          exact (c2 i).trans ((h.covers n i).trans (c1 i).symm)
        rw [hsp, this]
  have hnodes : t'.graph.nodes = t.graph.nodes := by
    apply List.ext_getElem?
    intro k
    have := hnode k
    by_cases hk : k < t.graph.nodes.length
    · cases h1 : t.graph.node? k with
      | some nd =>
        rw [h1] at this
        rw [Graph.node?_eq.1 this, Graph.node?_eq.1 h1]
      | none =>
        rw [h1] at this
        have a := Graph.node?_none.1 this
        have b := Graph.node?_none.1 h1
        have hk' : k < t'.graph.nodes.length := by rw [h.len]; exact hk
        rw [List.getElem?_eq_getElem hk'] at a ⊢
        rw [List.getElem?_eq_getElem hk] at b ⊢
        simp only [reduceCtorEq, false_or] at a b
        rw [a, b]
    · have := h.len
      rw [List.getElem?_eq_none (by omega), List.getElem?_eq_none (by omega)]
  have hdisc : t'.numDisc = t.numDisc := by
    have a := W.count
    have b := W'.count
    rw [countOK_iff] at a b
    rw [a, b]
    congr 1
    ext m
    rw [mem_discSet, mem_discSet, Disc.congr (hnode m)]
  have hg : t'.graph = t.graph := by rw [h.graph, hnodes]
  cases t; cases t'
  have := h.root
  have := h.nTerm
  simp_all

theorem resetNtSpans_id (W : t.WF) : t.resetNtSpans = .ok t := by
  obtain ⟨t', h1, h2, h3⟩ := resetNtSpans_wf W.graph W.shape W.sentence
  rw [h1, h2.eq_self W h3]

theorem compactTerminalSpans_id (Z : t.Sentence) : t.compactTerminalSpans = .ok (t, .ok ()) := by
  have key : ∀ (l : List (Nat × Nat)), (∀ p ∈ l, t.TermAt p.1 p.2) →
      forE (fun (t : Tree) (p : Nat × Nat) => do
        let nd ← t.node p.1
        match nd.setSpan (Span.ofIdx p.2) with
        | .ok nd' => return (t.setNode p.1 nd', .ok ())
        | .error e => return (t, .error e)) l t = .ok (t, (.ok () : Except Err Unit)) := by
    intro l
    induction l with
    | nil => intro _; rfl
    | cons p l ih =>
      intro h
      obtain ⟨x, hx, hs⟩ := h p List.mem_cons_self
      have h1 : (Node.term x).setSpan (Span.ofIdx p.2) = .ok (.term x) := by
        cases x; simp_all [Node.setSpan, Span.ofIdx, Span.nIndices]
      unfold forE
      simp only [node_eq hx, Res.ok_bind, h1, Res.pure_eq, setNode_self hx]
      exact ih (fun q hq => h q (List.mem_cons_of_mem _ hq))
  unfold compactTerminalSpans
  refine key _ ?_
  rintro ⟨m, i⟩ hm
  have hpos := sorted_terminals_positions Z
  have h1 : (t.sortIndices t.terminals)[i]? = some m := by
    rw [List.mem_zipIdx_iff_getElem?] at hm; exact hm
  have h2 : t.IsTerm m := by
    have := List.mem_of_getElem? h1
    rw [(sortIndices_perm _).mem_iff, mem_terminals] at this
    exact this
  have h3 : t.startOf m = i := by
    have := congrArg (fun l => l[i]?) hpos
    simp only [List.getElem?_map, h1, Option.map_some] at this
    have hi := (List.getElem?_eq_some_iff.1 this.symm).1
    rw [List.getElem?_eq_getElem hi] at this
    simpa using this
  exact h3 ▸ Z.termAt h2

/-- What `remove_terminal` does. -/
theorem removeTerminal_spec (W : t.WF) {n p s : Nat} {x : Terminal}
    (hx : t.graph.node? n = some (.term x)) (hp : t.IsChild p n) (hs : t.IsChild p s) (hne : s ≠ n) :
    ∃ t', t.removeTerminal n = .ok (t', .ok (.term x)) ∧ t'.graph.OK ∧
      (∀ m, t'.graph.node? m = if m = n then none else t.graph.node? m) ∧
      t'.graph.edges = t.graph.edges.filter (fun r => r.src ≠ n ∧ r.tgt ≠ n) ∧
      t'.nTerminals + 1 = t.nTerminals ∧ t'.root = t.root ∧ t'.numDisc = t.numDisc := by
  obtain ⟨g', h1, h2, h3, h4, h5⟩ := Graph.removeNode_spec W.graph hx
  obtain ⟨i, hi, _⟩ := W.sentence.pos n ⟨x, hx⟩
  refine ⟨{ t with nTerminals := t.nTerminals - 1, graph := g' }, ?_, ‹_›, ‹_›, ‹_›, ?_, rfl, rfl⟩
  · unfold removeTerminal
    have hns : ¬ (t.siblings n).length = 0 := by
      intro h0
      have : s ∈ (t.siblings n).map (·.1) := (mem_siblings W.shape).2 ⟨hne, p, hp, hs⟩
      rw [List.length_eq_zero_iff.1 h0] at this
      simp at this
    rw [node_eq hx]
    simp only [Res.ok_bind, Node.isTerminal, Res.assert_true]
    rw [if_neg hns, compactTerminalSpans_id W.sentence]
    simp only [Res.ok_bind, resetNtSpans_id W, Res.sub_of_le (show 1 ≤ t.nTerminals by omega), h1,
      Res.ofOption_some, Res.pure_eq]
  · show t.nTerminals - 1 + 1 = _
    omega

theorem removeTerminal_last (W : t.WF) {n : Nat} {x : Terminal} (hx : t.graph.node? n = some (.term x))
    (h : ∀ p s, t.IsChild p n → t.IsChild p s → s = n) :
    t.removeTerminal n = .ok (t, .error .lastTerminal) := by
  have hns : (t.siblings n).length = 0 := by
    rw [List.length_eq_zero_iff, List.eq_nil_iff_forall_not_mem]
    intro q hq
    have : q.1 ∈ (t.siblings n).map (·.1) := List.mem_map_of_mem hq
    obtain ⟨h1, p, h2, h3⟩ := (mem_siblings W.shape).1 this
    exact h1 (h p _ h2 h3)
  unfold removeTerminal
  rw [node_eq hx]
  simp only [Res.ok_bind, Node.isTerminal, Res.assert_true]
  rw [if_pos hns]
  rfl

/-- The tree left by `remove_terminal` is not well formed: the parent's span still contains the
position of the removed terminal. -/
theorem removeTerminal_not_wf (W : t.WF) {n p : Nat} (hn : t.IsTerm n) (hp : t.IsChild p n)
    (hnode : ∀ m, t'.graph.node? m = if m = n then none else t.graph.node? m) : ¬ t'.WF := by
  intro W'
  obtain ⟨x, hx⟩ := hn
  obtain ⟨i, hi, hpos⟩ := W.sentence.pos n ⟨x, hx⟩
  obtain ⟨y, hy⟩ := W.shape.parent_isNt W.graph hp
  have hpn : p ≠ n := by rintro rfl; exact W.shape.not_isChild_self W.graph p hp
  obtain ⟨yv, yc⟩ := W.span_spec hy
  have hy' : t'.graph.node? p = some (.nt y) := by rw [hnode, if_neg hpn]; exact hy
  obtain ⟨_, yc'⟩ := W'.span_spec hy'
  have h1 : i ∈ y.span.indices := (yc i).2 ⟨n, Dom.single hp, hpos⟩
  obtain ⟨m, _, z, hz, hzs⟩ := (yc' i).1 h1
  rw [hnode] at hz
  by_cases e : m = n
  · rw [if_pos e] at hz; simp at hz
  · rw [if_neg e] at hz
    exact e (W.sentence.inj m n i ⟨z, hz, hzs⟩ hpos)

end Tree
end Lumberjack
