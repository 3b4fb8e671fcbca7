import Verif.Proofs.Dfs

/-!
# Changes of nonterminal spans; `reset_nt_spans`
-/

namespace Lumberjack
namespace Tree

open Relation

/-- `t'` differs from `t` at most in the spans of nonterminals and in the counter of discontinuous
nodes. -/
structure SpanEdit (t t' : Tree) : Prop where
  graph : t'.graph = { t.graph with nodes := t'.graph.nodes }
  root : t'.root = t.root
  nTerm : t'.nTerminals = t.nTerminals
  len : t'.graph.nodes.length = t.graph.nodes.length
  none : ∀ n, t.graph.node? n = none → t'.graph.node? n = none
  term : ∀ n x, t.graph.node? n = some (.term x) → t'.graph.node? n = some (.term x)
  nt : ∀ n x, t.graph.node? n = some (.nt x) →
    ∃ sp, t'.graph.node? n = some (.nt { x with span := sp })

namespace SpanEdit

variable {t t' t'' : Tree}

theorem refl (t : Tree) : SpanEdit t t where
  graph := rfl
  root := rfl
  nTerm := rfl
  len := rfl
  none _ h := h
  term _ _ h := h
  nt _ x h := ⟨x.span, h⟩

theorem trans (h : SpanEdit t t') (h' : SpanEdit t' t'') : SpanEdit t t'' where
  graph := by rw [h'.graph, h.graph]
  root := h'.root.trans h.root
  nTerm := h'.nTerm.trans h.nTerm
  len := h'.len.trans h.len
  none n hn := h'.none n (h.none n hn)
  term n x hx := h'.term n x (h.term n x hx)
  nt n x hx := by
    obtain ⟨sp, h1⟩ := h.nt n x hx
    obtain ⟨sp', h2⟩ := h'.nt n _ h1
    exact ⟨sp', h2⟩

theorem edges (h : SpanEdit t t') : t'.graph.edges = t.graph.edges := by rw [h.graph]

theorem isTerm (h : SpanEdit t t') (n : Nat) : t'.IsTerm n ↔ t.IsTerm n := by
  constructor
  · rintro ⟨x, hx⟩
    cases hn : t.graph.node? n with
    | none => rw [h.none n hn] at hx; simp at hx
    | some nd =>
      cases nd with
      | term y => exact ⟨y, hn⟩
      | nt y =>
        obtain ⟨sp, h2⟩ := h.nt n y hn
        rw [h2] at hx; simp at hx
  · rintro ⟨x, hx⟩; exact ⟨x, h.term n x hx⟩

theorem isNt (h : SpanEdit t t') (n : Nat) : t'.IsNt n ↔ t.IsNt n := by
  constructor
  · rintro ⟨x, hx⟩
    cases hn : t.graph.node? n with
    | none => rw [h.none n hn] at hx; simp at hx
    | some nd =>
      cases nd with
      | term y => rw [h.term n y hn] at hx; simp at hx
      | nt y => exact ⟨y, hn⟩
  · rintro ⟨x, hx⟩
    obtain ⟨sp, h2⟩ := h.nt n x hx
    exact ⟨_, h2⟩

theorem live (h : SpanEdit t t') (n : Nat) : t'.Live n ↔ t.Live n := by
  rw [live_iff, live_iff, h.isTerm, h.isNt]

theorem termAt (h : SpanEdit t t') (n i : Nat) : t'.TermAt n i ↔ t.TermAt n i := by
  constructor
  · intro hn
    obtain ⟨y, hy⟩ := (h.isTerm n).1 hn.isTerm
    obtain ⟨x, hx, hs⟩ := hn
    rw [h.term n y hy] at hx
    simp only [Option.some.injEq, Node.term.injEq] at hx
    subst hx
    exact ⟨y, hy, hs⟩
  · rintro ⟨x, hx, hs⟩
    exact ⟨x, h.term n x hx, hs⟩

theorem nt_back (h : SpanEdit t t') {n : Nat} {x : NonTerminal}
    (hx : t'.graph.node? n = some (.nt x)) :
    ∃ y, t.graph.node? n = some (.nt y) ∧ x = { y with span := x.span } := by
  obtain ⟨y, hy⟩ := (h.isNt n).1 ⟨x, hx⟩
  obtain ⟨sp, h2⟩ := h.nt n y hy
  rw [h2] at hx
  simp only [Option.some.injEq, Node.nt.injEq] at hx
  subst hx
  exact ⟨y, hy, rfl⟩

theorem isChild (h : SpanEdit t t') : t'.IsChild = t.IsChild :=
  isChild_congr' (primEdges_congr h.edges)

theorem dom (h : SpanEdit t t') : t'.Dom = t.Dom := dom_congr h.isChild

theorem covers (h : SpanEdit t t') (n i : Nat) : t'.Covers n i ↔ t.Covers n i := by
  unfold Covers
  simp only [h.dom, h.termAt]

theorem shape (h : SpanEdit t t') (S : t.Shape) : t'.Shape :=
  S.congr (primEdges_congr h.edges) h.root h.isTerm h.isNt

theorem sentence (h : SpanEdit t t') (Z : t.Sentence) : t'.Sentence where
  pos n hn := by
    obtain ⟨i, h1, h2⟩ := Z.pos n ((h.isTerm n).1 hn)
    exact ⟨i, by rw [h.nTerm]; exact h1, (h.termAt n i).2 h2⟩
  occupied i hi := by
    rw [h.nTerm] at hi
    obtain ⟨n, hn⟩ := Z.occupied i hi
    exact ⟨n, (h.termAt n i).2 hn⟩
  inj n m i h1 h2 := Z.inj n m i ((h.termAt n i).1 h1) ((h.termAt m i).1 h2)

theorem ok (h : SpanEdit t t') (G : t.graph.OK) : t'.graph.OK := by
  have hl : ∀ n, t'.graph.Live n ↔ t.graph.Live n := h.live
  rw [h.graph] at hl ⊢
  refine ⟨G.ids_nodup, G.ids_lt, G.freeEdges_nodup, G.freeEdges, G.freeNodes_nodup, ?_, ?_⟩
  · intro i hi
    obtain ⟨h1, h2⟩ := G.freeNodes i hi
    refine ⟨by simp only [h.len]; exact h1, ?_⟩
    have h3 := h.none i h2
    rw [h.graph] at h3
    exact h3
  · intro r hr
    obtain ⟨h1, h2⟩ := G.ends r hr
    exact ⟨(hl _).2 h1, (hl _).2 h2⟩

/-- Setting the span of one nonterminal. -/
theorem setNt {n : Nat} {x : NonTerminal} (h : t.graph.node? n = some (.nt x)) (sp : Span) (k : Nat) :
    SpanEdit t { t.setNode n (.nt { x with span := sp }) with numDisc := k } where
  graph := rfl
  root := rfl
  nTerm := rfl
  len := by simp [setNode]
  none m hm := by
    show (t.graph.setNode n _).node? m = _
    rw [Graph.node?_setNode ⟨_, h⟩]
    split
    · rename_i e; subst e; rw [h] at hm; simp at hm
    · exact hm
  term m y hy := by
    show (t.graph.setNode n _).node? m = _
    rw [Graph.node?_setNode ⟨_, h⟩]
    split
    · rename_i e; subst e; rw [h] at hy; simp at hy
    · exact hy
  nt m y hy := by
    show ∃ sp', (t.graph.setNode n _).node? m = _
    rw [Graph.node?_setNode ⟨_, h⟩]
    split
    · rename_i e
      subst e
      rw [h] at hy
      simp only [Option.some.injEq, Node.nt.injEq] at hy
      subst hy
      exact ⟨sp, rfl⟩
    · exact ⟨y.span, hy⟩

theorem withDisc (t : Tree) (k : Nat) : SpanEdit t { t with numDisc := k } where
  graph := rfl
  root := rfl
  nTerm := rfl
  len := rfl
  none _ h := h
  term _ _ h := h
  nt _ x h := ⟨x.span, h⟩

end SpanEdit

variable {t : Tree}

theorem node_eq {n : Nat} {nd : Node} (h : t.graph.node? n = some nd) : t.node n = .ok nd := by
  unfold node; rw [h]; rfl

theorem node_ok {n : Nat} {nd : Node} : t.node n = .ok nd ↔ t.graph.node? n = some nd := by
  unfold node; exact Res.ofOption_eq_ok

theorem node_panic {n : Nat} (h : ¬ t.Live n) : t.node n = .panic := by
  unfold node
  cases hn : t.graph.node? n with
  | none => rfl
  | some nd => exact absurd ⟨nd, hn⟩ h

/-- The concatenated positions of some nodes. -/
theorem foldl_toVec (cs : List (Nat × Nat)) (acc : List Nat) (h : ∀ c ∈ cs, t.Live c.1) :
    ∃ v, cs.foldlM (init := acc) (fun acc c => do
      let cn ← t.node c.1
      return acc ++ cn.span.toVec) = Res.ok v ∧
    ∀ i, i ∈ v ↔ i ∈ acc ∨ ∃ c ∈ cs, ∃ nd, t.graph.node? c.1 = some nd ∧ i ∈ nd.span.indices := by
  induction cs generalizing acc with
  | nil => exact ⟨acc, rfl, by simp⟩
  | cons c cs ih =>
    obtain ⟨nd, hnd⟩ := h c (by simp)
    obtain ⟨v, h1, h2⟩ := ih (acc ++ nd.span.toVec) (fun c hc => h c (by simp [hc]))
    refine ⟨v, ?_, ?_⟩
    · rw [List.foldlM_cons, node_eq hnd]
      exact h1
    · intro i
      rw [h2, List.mem_append, Span.mem_toVec]
      constructor
      · rintro ((h | h) | ⟨c', hc', nd', h3, h4⟩)
        · exact .inl h
        · exact .inr ⟨c, by simp, nd, hnd, h⟩
        · exact .inr ⟨c', by simp [hc'], nd', h3, h4⟩
      · rintro (h | ⟨c', hc', nd', h3, h4⟩)
        · exact .inl (.inl h)
        · rcases List.mem_cons.1 hc' with rfl | hc'
          · rw [hnd] at h3
            simp only [Option.some.injEq] at h3
            subst h3
            exact .inl (.inr h4)
          · exact .inr ⟨c', hc', nd', h3, h4⟩

/-- The span stored at `n` is right. -/
def SpanRight (t : Tree) (n : Nat) : Prop := ∀ nd, t.graph.node? n = some nd →
  nd.span.Valid ∧ ∀ i, i ∈ nd.span.indices ↔ t.Covers n i

theorem spanRight_term (S : t.Shape) {n : Nat} (h : ∃ i, t.TermAt n i) :
    t.SpanRight n := by
  intro nd hnd
  obtain ⟨i, x, hx, hs⟩ := h
  rw [hx] at hnd
  simp only [Option.some.injEq] at hnd
  subst hnd
  have hs' : (Node.term x).span = Span.ofIdx i := hs
  rw [hs']
  refine ⟨Span.ofIdx_valid i, fun j => ?_⟩
  rw [Span.ofIdx_indices, Finset.mem_singleton, covers_term S ⟨x, hx⟩]
  constructor
  · rintro rfl; exact ⟨x, hx, hs⟩
  · intro hj; exact hj.pos_unique ⟨x, hx, hs⟩

theorem spansOK_iff : t.SpansOK ↔ ∀ n, t.IsNt n → t.SpanRight n := by
  constructor
  · rintro h n ⟨x, hx⟩ nd hnd
    rw [hx] at hnd
    simp only [Option.some.injEq] at hnd
    subst hnd
    obtain ⟨h1, h2⟩ := h n x hx
    exact ⟨h1, fun i => by rw [← h2, Span.contains_iff]; rfl⟩
  · intro h n x hx
    obtain ⟨h1, h2⟩ := h n ⟨x, hx⟩ _ hx
    exact ⟨h1, fun i => by rw [Span.contains_iff]; exact h2 i⟩

/-- A live node covers something, once terminals have positions. -/
theorem Shape.covers_something (G : t.graph.OK) (S : t.Shape)
    (hpos : ∀ n, t.IsTerm n → ∃ i, t.TermAt n i) {n : Nat} (hn : t.Live n) : ∃ i, t.Covers n i := by
  obtain ⟨m, hm, ht⟩ := S.exists_terminal G n hn
  obtain ⟨i, hi⟩ := hpos m ht
  exact ⟨i, m, hm, hi⟩

/-- Recomputing the span of one node whose children have the right spans. -/
theorem resetNode_spec (G : t.graph.OK) (S : t.Shape)
    (hpos : ∀ n, t.IsTerm n → ∃ i, t.TermAt n i) {n : Nat} (hn : t.Live n)
    (hc : ∀ c, t.IsChild n c → t.SpanRight c) :
    ∃ t', t.resetNode n = .ok t' ∧ SpanEdit t t' ∧ t'.SpanRight n ∧
      (∀ m, m ≠ n → t'.graph.node? m = t.graph.node? m) ∧
      t'.numDisc = t.numDisc + if t'.Disc n then 1 else 0 := by
  obtain ⟨nd, hnd⟩ := hn
  cases nd with
  | term x =>
    refine ⟨t, ?_, SpanEdit.refl t, spanRight_term S (hpos n ⟨x, hnd⟩), fun _ _ => rfl, ?_⟩
    · unfold resetNode; rw [node_eq hnd]; rfl
    · have : ¬ t.Disc n := by rintro ⟨y, hy, _⟩; rw [hnd] at hy; simp at hy
      simp [this]
  | nt x =>
    obtain ⟨v, hv, hv2⟩ := foldl_toVec (t := t) (t.children n) []
      (fun c hcm => (isChild_live G (isChild_of_mem_children hcm)).2)
    have hmem : ∀ i, i ∈ v ↔ t.Covers n i := by
      intro i
      rw [hv2, covers_nt ⟨x, hnd⟩]
      simp only [List.not_mem_nil, false_or]
      constructor
      · rintro ⟨c, hcm, nd, h1, h2⟩
        have hch := isChild_of_mem_children hcm
        exact ⟨c.1, hch, ((hc c.1 hch nd h1).2 i).1 h2⟩
      · rintro ⟨c, hch, hcov⟩
        obtain ⟨c', hc', rfl⟩ := List.mem_map.1 (mem_children_fst.2 hch)
        obtain ⟨nd, h1⟩ := (isChild_live G hch).2
        exact ⟨c', hc', nd, h1, ((hc _ hch nd h1).2 i).2 hcov⟩
    have hne : v ≠ [] := by
      obtain ⟨i, hi⟩ := S.covers_something G hpos ⟨_, hnd⟩
      exact List.ne_nil_of_mem ((hmem i).2 hi)
    obtain ⟨sp, h1, h2, h3⟩ := Span.fromVec_spec hne
    have hedit := SpanEdit.setNt hnd sp (if sp.skips.isSome then t.numDisc + 1 else t.numDisc)
    have hnode : ∀ m, ({ t.setNode n (.nt { x with span := sp }) with
        numDisc := if sp.skips.isSome then t.numDisc + 1 else t.numDisc } : Tree).graph.node? m =
        if m = n then some (.nt { x with span := sp }) else t.graph.node? m :=
      fun m => Graph.node?_setNode ⟨_, hnd⟩ _ m
    refine ⟨_, ?_, hedit, ?_, ?_, ?_⟩
    · unfold resetNode
      rw [node_eq hnd]
      simp only [Res.ok_bind]
      rw [hv]
      simp only [Res.ok_bind, h1, Res.unwrap_ok]
      rfl
    · intro nd' hnd'
      rw [hnode, if_pos rfl] at hnd'
      simp only [Option.some.injEq] at hnd'
      subst hnd'
      refine ⟨h2, fun i => ?_⟩
      rw [hedit.covers]
      show i ∈ sp.indices ↔ _
      rw [h3, List.mem_toFinset, hmem]
    · intro m hm
      rw [hnode, if_neg hm]
    · have hd : Tree.Disc { t.setNode n (.nt { x with span := sp }) with
          numDisc := if sp.skips.isSome then t.numDisc + 1 else t.numDisc } n ↔ sp.skips.isSome = true := by
        unfold Disc
        rw [hnode, if_pos rfl]
        simp
      by_cases hsk : sp.skips.isSome = true
      · rw [if_pos (hd.2 hsk)]; simp [hsk]
      · rw [if_neg (fun h => hsk (hd.1 h))]; simp [hsk]

/-- `reset_nt_spans` makes all spans right, whatever they were before. -/
theorem resetNtSpans_spec (G : t.graph.OK) (S : t.Shape)
    (hpos : ∀ n, t.IsTerm n → ∃ i, t.TermAt n i) :
    ∃ t', t.resetNtSpans = .ok t' ∧ SpanEdit t t' ∧ t'.SpansOK ∧ t'.CountOK := by
  unfold resetNtSpans
  refine loopM_rule
    (fun (s : Tree × DfsPost) => SpanEdit t s.1 ∧ PInv t s.2 ∧ (∀ n ∈ s.2.finished, s.1.SpanRight n) ∧
      s.1.numDisc = (s.2.finished.filter s.1.Disc).card)
    (fun s => t.graph.nodes.length + 1 - s.2.finished.card) _ ?_ _ _ ?_ ?_
  · rintro ⟨t1, d⟩ ⟨hE, hP, hR, hD⟩
    simp only at hE hP hR hD
    have G1 := hE.ok G
    have S1 := hE.shape S
    have P1 : PInv t1 d := hP.congr hE.isChild hE.live
    rcases P1.next G1 S1 with ⟨x, d', h1, h2, h3, h4, h5, h6⟩ | ⟨d', h1, h2⟩
    · left
      have hpos1 : ∀ n, t1.IsTerm n → ∃ i, t1.TermAt n i := by
        intro n hn
        obtain ⟨i, hi⟩ := hpos n ((hE.isTerm n).1 hn)
        exact ⟨i, (hE.termAt n i).2 hi⟩
      obtain ⟨t2, g1, g2, g3, g4, g5⟩ := resetNode_spec G1 S1 hpos1 h3 (fun c hc => hR c (h6 c hc))
      refine ⟨(t2, d'), ?_, ⟨hE.trans g2, ?_, ?_, ?_⟩, ?_⟩
      · simp only [h1, Res.ok_bind, g1]; rfl
      · exact h2.congr hE.isChild.symm (fun n => (hE.live n).symm)
      · intro n hn
        simp only at hn ⊢
        rw [h5] at hn
        by_cases e : n = x
        · subst e; exact g3
        · have hn' := hR n ((Finset.mem_insert.1 hn).resolve_left e)
          intro nd hnd
          rw [g4 n e] at hnd
          obtain ⟨q1, q2⟩ := hn' nd hnd
          exact ⟨q1, fun i => by rw [g2.covers]; exact q2 i⟩
      · simp only
        rw [g5, hD, h5]
        have hcongr : ∀ n ∈ d.finished, t2.Disc n ↔ t1.Disc n := fun n hn =>
          Disc.congr (g4 n (by rintro rfl; exact h4 hn))
        rw [Finset.filter_insert]
        have : d.finished.filter t2.Disc = d.finished.filter t1.Disc := Finset.filter_congr hcongr
        by_cases hx : t2.Disc x
        · rw [if_pos hx, if_pos hx, Finset.card_insert_of_notMem, this]
          rw [Finset.mem_filter]
          exact fun h => h4 h.1
        · rw [if_neg hx, if_neg hx, this, Nat.add_zero]
      · simp only
        rw [h5, Finset.card_insert_of_notMem h4]
        have hcard : d.finished.card ≤ t.graph.nodes.length := by
          refine (Finset.card_le_card ?_).trans hP.card_le
          intro y hy; exact hP.fin_sub y hy
        omega
    · right
      refine ⟨t1, ?_, hE, ?_, ?_⟩
      · simp only [h1, Res.ok_bind]; rfl
      · rw [spansOK_iff]
        exact fun n hn => hR n (h2 n hn.live)
      · rw [countOK_iff, hD]
        congr 1
        ext n
        rw [Finset.mem_filter, mem_discSet]
        refine ⟨fun h => h.2, fun h => ⟨?_, h⟩⟩
        obtain ⟨x, hx, _⟩ := h
        exact h2 n ⟨_, hx⟩
  · refine ⟨SpanEdit.withDisc t 0, PInv.new S, by simp [DfsPost.new], by simp [DfsPost.new]⟩
  · simp [DfsPost.new]

/-- `reset_nt_spans` on a tree with a good shape and good terminals gives a well-formed tree. -/
theorem resetNtSpans_wf (G : t.graph.OK) (S : t.Shape) (Z : t.Sentence) :
    ∃ t', t.resetNtSpans = .ok t' ∧ SpanEdit t t' ∧ t'.WF := by
  obtain ⟨t', h1, h2, h3, h4⟩ := resetNtSpans_spec G S (fun n hn => by
    obtain ⟨i, _, hi⟩ := Z.pos n hn; exact ⟨i, hi⟩)
  exact ⟨t', h1, h2, h2.ok G, h2.shape S, h2.sentence Z, h3, h4⟩

end Tree
end Lumberjack
