import Verif.Proofs.Remove

/-!
# Inserting unary nodes
-/

namespace Lumberjack
namespace Tree

open Relation

variable {t t' : Tree}

/-- Well-formedness apart from the counter of discontinuous nodes. -/
structure Core (t : Tree) : Prop where
  graph : t.graph.OK
  shape : t.Shape
  sentence : t.Sentence
  spans : t.SpansOK

theorem WF.core (W : t.WF) : t.Core := ⟨W.graph, W.shape, W.sentence, W.spans⟩
theorem Core.wf (C : t.Core) (h : t.CountOK) : t.WF := ⟨C.graph, C.shape, C.sentence, C.spans, h⟩

theorem Core.spanRight (C : t.Core) (n : Nat) : t.SpanRight n := by
  intro nd hnd
  cases nd with
  | nt x => exact spansOK_iff.1 C.spans n ⟨x, hnd⟩ _ hnd
  | term x =>
    obtain ⟨i, _, hi⟩ := C.sentence.pos n ⟨x, hnd⟩
    exact spanRight_term C.shape ⟨i, hi⟩ _ hnd

/-- A leafless description of adding a unary node `ins` directly above `c`. -/
theorem insertUnaryAbove_spec (C : t.Core) {c : Nat} {nd : Node} (hc : t.graph.node? c = some nd)
    (label : Str) :
    ∃ t' ins, t.insertUnaryAbove c label = .ok (t', ins) ∧ t'.Core ∧ Cut t' t ins ∧
      t'.graph.node? ins = some (.nt (NonTerminal.new label nd.span)) ∧
      t'.numDisc = t.numDisc ∧ t'.nTerminals = t.nTerminals ∧
      (∀ a b, t'.IsChild a b ↔ (t.IsChild a b ∧ b ≠ c) ∨ (t.IsChild a c ∧ b = ins) ∨
        (a = ins ∧ b = c)) ∧
      t'.root = (if c = t.root then ins else t.root) ∧
      (∀ r ∈ t.graph.edges, (r.w.isPrimary = false ∨ r.tgt ≠ c) → r ∈ t'.graph.edges) ∧
      (∀ r ∈ t'.graph.edges, r ∈ t.graph.edges ∨
        (t.IsChild r.src c ∧ r.tgt = ins ∧ r.w = .primary none) ∨
        (r.src = ins ∧ r.tgt = c ∧ r.w.isPrimary = true ∧
          ((∃ s ∈ t.graph.edges, s.tgt = c ∧ s.w = r.w) ∨
            ((∀ p, ¬ t.IsChild p c) ∧ r.w = .primary none)))) := by
  have G := C.graph
  have S := C.shape
  have hcl : t.Live c := ⟨_, hc⟩
  obtain ⟨hfree, hnode1, hedges1, G1, _, _, _, _, _⟩ :=
    Graph.addNode_spec G (.nt (NonTerminal.new label nd.span))
  set g1 := (t.graph.addNode (.nt (NonTerminal.new label nd.span))).1 with hg1
  set ins := (t.graph.addNode (.nt (NonTerminal.new label nd.span))).2 with hins
  have hadd : t.graph.addNode (.nt (NonTerminal.new label nd.span)) = (g1, ins) := rfl
  have hdead : ¬ t.Live ins := by rintro ⟨x, hx⟩; rw [hfree] at hx; simp at hx
  have hinsc : ins ≠ c := by rintro e; rw [e] at hdead; exact hdead hcl
  have hlive1 : ∀ m, g1.Live m ↔ m = ins ∨ t.graph.Live m := by
    intro m
    unfold Graph.Live
    rw [hnode1]
    by_cases e : m = ins
    · simp [e]
    · simp [e]
  have hnoedge : ∀ r ∈ t.graph.edges, r.src ≠ ins ∧ r.tgt ≠ ins := by
    intro r hr
    obtain ⟨h1, h2⟩ := G.ends r hr
    exact ⟨fun e => hdead (e ▸ h1), fun e => hdead (e ▸ h2)⟩
  have hnochild : ∀ a b, t.IsChild a b → a ≠ ins ∧ b ≠ ins := by
    rintro a b ⟨r, hr, rfl, rfl, _⟩
    exact hnoedge r hr
  -- everything that follows from the resulting edges
  have finish : ∀ t' : Tree, t'.graph.OK → (∀ m, t'.graph.node? m = g1.node? m) →
      t'.nTerminals = t.nTerminals →
      t'.Uniq → (∀ a b, t'.IsChild a b ↔ (t.IsChild a b ∧ b ≠ c) ∨ (t.IsChild a c ∧ b = ins) ∨
        (a = ins ∧ b = c)) →
      t'.root = (if c = t.root then ins else t.root) →
      t'.Core ∧ Cut t' t ins ∧ t'.graph.node? ins = some (.nt (NonTerminal.new label nd.span)) := by
    intro t' G' hnode hk hu hch hr
    have hself : ¬ t'.IsChild ins ins := by
      rw [hch]
      rintro (⟨h, _⟩ | ⟨h, _⟩ | ⟨_, h⟩)
      · exact (hnochild _ _ h).1 rfl
      · exact (hnochild _ _ h).1 rfl
      · exact hinsc h
    have hinsnode : t'.graph.node? ins = some (.nt (NonTerminal.new label nd.span)) := by
      rw [hnode, hnode1, if_pos rfl]
    have hcut : Cut t' t ins := by
      refine ⟨?_, ⟨_, hinsnode⟩, hfree, fun m hm => by rw [hnode, hnode1, if_neg hm]⟩
      intro a b
      rw [hch, hch, hch]
      constructor
      · intro h
        refine ⟨(hnochild _ _ h).1, (hnochild _ _ h).2, ?_⟩
        by_cases e : b = c
        · subst e
          exact .inr ⟨.inr (.inl ⟨h, rfl⟩), .inr (.inr ⟨rfl, rfl⟩)⟩
        · exact .inl (.inl ⟨h, e⟩)
      · rintro ⟨h1, h2, (⟨h, _⟩ | ⟨_, h⟩ | ⟨h, _⟩) | ⟨h3, h4⟩⟩
        · exact h
        · exact absurd h h2
        · exact absurd h h1
        · have hac : t.IsChild a c := by
            rcases h3 with ⟨h, _⟩ | ⟨h, _⟩ | ⟨h, _⟩
            · exact absurd rfl (hnochild _ _ h).2
            · exact h
            · exact absurd h h1
          have hbc : b = c := by
            rcases h4 with ⟨h, _⟩ | ⟨h, _⟩ | ⟨_, h⟩
            · exact absurd rfl (hnochild _ _ h).1
            · exact absurd rfl (hnochild _ _ h).1
            · exact h
          rw [hbc]; exact hac
    have hnt : t'.IsNt ins := ⟨_, hinsnode⟩
    have S' : t'.Shape := by
      refine hcut.shape_up G' S hu hself ?_ (fun _ => ⟨c, (hch _ _).2 (.inr (.inr ⟨rfl, rfl⟩))⟩) ?_
      · intro m b hm hb
        have hm' : m ≠ ins := by rintro rfl; exact not_isTerm_isNt hm hnt
        have hmt := (hcut.isTerm m).2 ⟨hm', hm⟩
        rcases (hch m b).1 hb with ⟨h, _⟩ | ⟨h, _⟩ | ⟨h, _⟩
        · exact S.term_leaf m _ hmt h
        · exact S.term_leaf m _ hmt h
        · exact hm' h
      · by_cases e : c = t.root
        · rw [if_pos e] at hr
          refine .inr ⟨hr, by rw [← e]; exact (hch _ _).2 (.inr (.inr ⟨rfl, rfl⟩)), ?_⟩
          intro p hp
          rcases (hch p ins).1 hp with ⟨h, _⟩ | ⟨h, _⟩ | ⟨_, h⟩
          · exact (hnochild _ _ h).2 rfl
          · rw [e] at h; exact S.root_top p h
          · exact hinsc h
        · rw [if_neg e] at hr
          obtain ⟨p, hp⟩ := S.exists_parent hcl e
          exact .inl ⟨hr, p, (hnochild _ _ hp).1, (hch _ _).2 (.inr (.inl ⟨hp, rfl⟩))⟩
    refine ⟨⟨G', S', hcut.sentence_up hnt C.sentence hk.symm, ?_⟩, hcut, hinsnode⟩
    refine hcut.spans_up hself hnt C.spans ?_
    intro nd' hnd'
    rw [hinsnode] at hnd'
    simp only [Option.some.injEq] at hnd'
    subst hnd'
    obtain ⟨h1, h2⟩ := C.spanRight c nd hc
    refine ⟨h1, fun i => ?_⟩
    have : t'.Covers ins i ↔ t'.Covers c i := by
      rw [covers_nt hnt]
      constructor
      · rintro ⟨b, hb, hcov⟩
        rcases (hch ins b).1 hb with ⟨h, _⟩ | ⟨h, _⟩ | ⟨_, h⟩
        · exact absurd rfl (hnochild _ _ h).1
        · exact absurd rfl (hnochild _ _ h).1
        · rw [← h]; exact hcov
      · intro hcov
        exact ⟨c, (hch _ _).2 (.inr (.inr ⟨rfl, rfl⟩)), hcov⟩
    rw [this, ← hcut.covers_nt hself hnt (Ne.symm hinsc)]
    exact h2 i
  have hparent1 : ({ t with graph := g1 } : Tree).parent c = t.parent c :=
    parent_congr (primEdges_congr hedges1) c
  by_cases hroot : c = t.root
  · -- no parent
    have hnop : ∀ p, ¬ t.IsChild p c := by rw [hroot]; exact S.root_top
    obtain ⟨g2, e, k1, k2, k3, k4, k5, k6⟩ := Graph.addEdge_spec G1 ((hlive1 ins).2 (.inl rfl))
      ((hlive1 c).2 (.inr hcl)) (.primary none)
    set t2 : Tree := { t with graph := g2, root := if c = t.root then ins else t.root } with ht2
    have hnode : ∀ m, t2.graph.node? m = g1.node? m := fun m => by
      unfold Graph.node?; rw [show t2.graph.nodes = g1.nodes from k3]
    have hpe : t2.primEdges = ⟨e, ins, c, .primary none⟩ :: t.primEdges := by
      unfold primEdges
      rw [show t2.graph.edges = _ from k2, hedges1]; rfl
    have hch : ∀ a b, t2.IsChild a b ↔ (t.IsChild a b ∧ b ≠ c) ∨ (t.IsChild a c ∧ b = ins) ∨
        (a = ins ∧ b = c) := by
      intro a b
      rw [isChild_prim, hpe]
      simp only [List.mem_cons, exists_eq_or_imp, ← isChild_prim]
      constructor
      · rintro (⟨rfl, rfl⟩ | h)
        · exact .inr (.inr ⟨rfl, rfl⟩)
        · exact .inl ⟨h, fun e => hnop a (e ▸ h)⟩
      · rintro (⟨h, _⟩ | ⟨h, _⟩ | ⟨rfl, rfl⟩)
        · exact .inr h
        · exact absurd h (hnop a)
        · exact .inl ⟨rfl, rfl⟩
    have hu : t2.Uniq := by
      apply uniq_of_nodup
      rw [hpe, List.map_cons, List.nodup_cons]
      refine ⟨?_, nodup_of_uniq G S.unique⟩
      intro hm
      obtain ⟨r, hr, e⟩ := List.mem_map.1 hm
      exact hnop r.src (isChild_prim.2 ⟨r, hr, rfl, e⟩)
    obtain ⟨q1, q2, q3⟩ := finish t2 k6 hnode rfl hu hch rfl
    refine ⟨t2, ins, ?_, q1, q2, q3, rfl, rfl, hch, rfl, ?_, ?_⟩
    · unfold insertUnaryAbove
      rw [node_eq hc]
      simp only [Res.ok_bind, hadd]
      rw [hparent1, parent_none.2 hnop]
      simp only [k1, Res.ok_bind]
      rfl
    · intro r hr _
      rw [show t2.graph.edges = _ from k2, hedges1]
      exact List.mem_cons_of_mem _ hr
    · intro r hr
      rw [show t2.graph.edges = _ from k2, hedges1] at hr
      rcases List.mem_cons.1 hr with rfl | hr
      · exact .inr (.inr ⟨rfl, rfl, rfl, .inr ⟨hnop, rfl⟩⟩)
      · exact .inl hr
  · -- below `p`
    obtain ⟨p, hp⟩ := S.exists_parent hcl hroot
    obtain ⟨r0, hr0, hsrc, htgt, hprim⟩ := hp
    have hp : t.IsChild p c := ⟨r0, hr0, hsrc, htgt, hprim⟩
    have hpar : t.parent c = some (p, r0.id) := by
      have := S.parent_of_edge hr0 hprim
      rw [htgt, hsrc] at this
      exact this
    obtain ⟨g2, j1, j2, j3, j4, j5⟩ := Graph.removeEdge_spec G1 (e := r0.id) (r := r0)
      (by rw [hedges1]; exact hr0) rfl
    have hlive2 : ∀ m, g2.Live m ↔ m = ins ∨ t.graph.Live m := fun m => by
      rw [← hlive1]; unfold Graph.Live Graph.node?; rw [j3]
    obtain ⟨g3, e3, l1, l2, l3, l4, l5, l6⟩ := Graph.addEdge_spec j5
      ((hlive2 p).2 (.inr (isChild_live G hp).1)) ((hlive2 ins).2 (.inl rfl)) (.primary none)
    have hlive3 : ∀ m, g3.Live m ↔ m = ins ∨ t.graph.Live m := fun m => by
      rw [← hlive2]; unfold Graph.Live Graph.node?; rw [l3]
    obtain ⟨g4, e4, k1, k2, k3, k4, k5, k6⟩ := Graph.addEdge_spec l6
      ((hlive3 ins).2 (.inl rfl)) ((hlive3 c).2 (.inr hcl)) r0.w
    set t2 : Tree := { t with graph := g4 } with ht2
    have hnode : ∀ m, t2.graph.node? m = g1.node? m := fun m => by
      unfold Graph.node?; rw [show t2.graph.nodes = g1.nodes from k3.trans (l3.trans j3)]
    have hE : t2.graph.edges = ⟨e4, ins, c, r0.w⟩ :: ⟨e3, p, ins, .primary none⟩ ::
        t.graph.edges.filter (fun r => r.id ≠ r0.id) := by
      rw [show t2.graph.edges = _ from k2, l2, j2, hedges1]
    have hpe : t2.primEdges = ⟨e4, ins, c, r0.w⟩ :: ⟨e3, p, ins, .primary none⟩ ::
        t.primEdges.filter (fun r => r.id ≠ r0.id) := by
      unfold primEdges
      rw [hE]
      rw [List.filter_cons_of_pos (by exact hprim), List.filter_cons_of_pos (by rfl)]
      rw [List.filter_filter, List.filter_filter]
      congr 2
      apply List.filter_congr
      intro r _
      exact Bool.and_comm _ _
    have hother : ∀ r ∈ t.primEdges, r.id ≠ r0.id ↔ r.tgt ≠ c := by
      intro r hr
      rw [mem_primEdges] at hr
      constructor
      · intro h e
        exact h (by rw [S.unique r hr.1 r0 hr0 (e.trans htgt.symm) hr.2 hprim])
      · intro h e
        exact h (by rw [G.edge_ext hr.1 hr0 e]; exact htgt)
    have hch : ∀ a b, t2.IsChild a b ↔ (t.IsChild a b ∧ b ≠ c) ∨ (t.IsChild a c ∧ b = ins) ∨
        (a = ins ∧ b = c) := by
      intro a b
      rw [isChild_prim, hpe]
      simp only [List.mem_cons, exists_eq_or_imp]
      constructor
      · rintro (⟨rfl, rfl⟩ | ⟨rfl, rfl⟩ | ⟨r, hr, rfl, rfl⟩)
        · exact .inr (.inr ⟨rfl, rfl⟩)
        · exact .inr (.inl ⟨hp, rfl⟩)
        · rw [List.mem_filter] at hr
          have h := (hother r hr.1).1 (by simpa using hr.2)
          exact .inl ⟨isChild_prim.2 ⟨r, hr.1, rfl, rfl⟩, h⟩
      · rintro (⟨h, hb⟩ | ⟨h, rfl⟩ | ⟨rfl, rfl⟩)
        · obtain ⟨r, hr, rfl, rfl⟩ := isChild_prim.1 h
          exact .inr (.inr ⟨r, List.mem_filter.2 ⟨hr, by simpa using (hother r hr).2 hb⟩, rfl, rfl⟩)
        · exact .inr (.inl ⟨S.isChild_unique hp h, rfl⟩)
        · exact .inl ⟨rfl, rfl⟩
    have hu : t2.Uniq := by
      apply uniq_of_nodup
      rw [hpe, List.map_cons, List.map_cons, List.nodup_cons, List.nodup_cons]
      refine ⟨?_, ?_, (nodup_of_uniq G S.unique).sublist (List.Sublist.map _ List.filter_sublist)⟩
      · intro hm
        rcases List.mem_cons.1 hm with h | h
        · exact hinsc h.symm
        · obtain ⟨r, hr, e⟩ := List.mem_map.1 h
          rw [List.mem_filter] at hr
          exact (hother r hr.1).1 (by simpa using hr.2) e
      · intro hm
        obtain ⟨r, hr, e⟩ := List.mem_map.1 hm
        rw [List.mem_filter, mem_primEdges] at hr
        exact (hnoedge r hr.1.1).2 e
    obtain ⟨q1, q2, q3⟩ := finish t2 k6 hnode rfl hu hch (by rw [if_neg hroot])
    refine ⟨t2, ins, ?_, q1, q2, q3, rfl, rfl, hch, by rw [if_neg hroot], ?_, ?_⟩
    · unfold insertUnaryAbove
      rw [node_eq hc]
      simp only [Res.ok_bind, hadd]
      rw [hparent1, hpar]
      simp only [j1, Res.ofOption_some, l1, k1, Res.ok_bind]
      rfl
    · intro r hr h
      rw [hE]
      refine List.mem_cons_of_mem _ (List.mem_cons_of_mem _ (List.mem_filter.2 ⟨hr, ?_⟩))
      simp only [ne_eq, decide_not, Bool.not_eq_true', decide_eq_false_iff_not]
      intro e
      have := G.edge_ext hr hr0 e
      subst this
      rcases h with h | h
      · rw [hprim] at h; simp at h
      · exact h htgt
    · intro r hr
      rw [hE] at hr
      rcases List.mem_cons.1 hr with rfl | hr
      · exact .inr (.inr ⟨rfl, rfl, hprim, .inl ⟨r0, hr0, htgt, rfl⟩⟩)
      · rcases List.mem_cons.1 hr with rfl | hr
        · exact .inr (.inl ⟨hp, rfl, rfl⟩)
        · exact .inl (List.mem_filter.1 hr).1

/-- The loop of `insert_unary_below`: replace the edges to `cs` by edges from `p`. -/
theorem moveEdges_spec {g : Graph} (p : Nat) (cs : List (Nat × Nat)) (G : g.OK) (hp : g.Live p)
    (hc : ∀ c ∈ cs, g.Live c.1 ∧ ∃ r ∈ g.edges, r.id = c.2) (hnd : (cs.map (·.2)).Nodup) :
    ∃ g' new, forM' (fun (g : Graph) (c : Nat × Nat) => do
        let (g', _) ← Res.ofOption (g.removeEdge c.2)
        let (g'', _) ← g'.addEdge p c.1 (.primary none)
        return g'') cs g = .ok g' ∧
      g'.edges = new ++ g.edges.filter (fun r => r.id ∉ cs.map (·.2)) ∧ g'.nodes = g.nodes ∧
      g'.OK ∧ new.map (·.tgt) = (cs.map (·.1)).reverse ∧
      (∀ r ∈ new, r.src = p ∧ r.w = .primary none) := by
  induction cs generalizing g with
  | nil => exact ⟨g, [], rfl, by simp, rfl, G, rfl, by simp⟩
  | cons c cs ih =>
    rw [List.map_cons, List.nodup_cons] at hnd
    obtain ⟨hcl, r0, hr0, hid⟩ := hc c (by simp)
    obtain ⟨g1, a1, a2, a3, a4, a5⟩ := Graph.removeEdge_spec G hr0 hid
    have hl1 : ∀ m, g1.Live m ↔ g.Live m := fun m => by unfold Graph.Live Graph.node?; rw [a3]
    obtain ⟨g2, e, h1, h2, h3, h4, h5, h6⟩ := Graph.addEdge_spec a5 ((hl1 p).2 hp) ((hl1 _).2 hcl)
      (.primary none)
    have hl : ∀ m, g2.Live m ↔ g.Live m := fun m => by
      rw [← hl1]; unfold Graph.Live Graph.node?; rw [h3]
    have hrest : ∀ c' ∈ cs, ∃ r ∈ g1.edges, r.id = c'.2 := by
      intro c' hc'
      obtain ⟨_, r, hr, hid'⟩ := hc c' (by simp [hc'])
      refine ⟨r, ?_, hid'⟩
      rw [a2, List.mem_filter]
      refine ⟨hr, ?_⟩
      have : c'.2 ≠ c.2 := by
        intro h; exact hnd.1 (h ▸ List.mem_map.2 ⟨c', hc', rfl⟩)
      simpa [hid'] using this
    have hnote : e ∉ cs.map (·.2) := by
      intro hm
      obtain ⟨c', hc', rfl⟩ := List.mem_map.1 hm
      obtain ⟨r, hr, hid'⟩ := hrest c' hc'
      exact h5 r hr hid'
    obtain ⟨g3, new, k1, k2, k3, k4, k5, k6⟩ := ih h6 ((hl p).2 hp)
      (fun c' hc' => ⟨(hl _).2 (hc c' (by simp [hc'])).1, by
        obtain ⟨r, hr, hid'⟩ := hrest c' hc'
        exact ⟨r, by rw [h2]; simp [hr], hid'⟩⟩) hnd.2
    refine ⟨g3, new ++ [⟨e, p, c.1, .primary none⟩], ?_, ?_, k3.trans (h3.trans a3), k4,
      by simp [k5], ?_⟩
    · rw [forM'_cons, a1]
      simp only [Res.ofOption_some, Res.ok_bind, h1]
      exact k1
    · rw [k2, h2, List.filter_cons_of_pos (by simpa using hnote), a2, List.filter_filter,
        List.append_assoc]
      congr 2
      apply List.filter_congr
      intro r _
      simp only [List.map_cons, List.mem_cons, not_or, ne_eq, decide_not]
      by_cases e1 : r.id = c.2 <;> by_cases e2 : r.id ∈ cs.map (·.2) <;> simp [e1, e2]
    · intro r hr
      rcases List.mem_append.1 hr with hr | hr
      · exact k6 r hr
      · simp only [List.mem_singleton] at hr
        subst hr
        exact ⟨rfl, rfl⟩

theorem children_ids_nodup (G : t.graph.OK) (n : Nat) : ((t.children n).map (·.2)).Nodup := by
  unfold children
  rw [List.map_map]
  exact G.ids_nodup.sublist (List.Sublist.map _
    (List.filter_sublist.trans List.filter_sublist))

/-- What `insert_unary_below` does to a nonterminal. -/
theorem insertUnaryBelow_spec (C : t.Core) {n : Nat} {x : NonTerminal}
    (hn : t.graph.node? n = some (.nt x)) (label : Str) :
    ∃ t' ins, t.insertUnaryBelow n label = .ok (t', .ok ins) ∧ t'.Core ∧ Cut t' t ins ∧
      t'.graph.node? ins = some (.nt (NonTerminal.new label x.span)) ∧
      t'.numDisc = t.numDisc ∧ t'.nTerminals = t.nTerminals ∧
      (∀ a b, t'.IsChild a b ↔ (t.IsChild a b ∧ a ≠ n) ∨ (a = n ∧ b = ins) ∨
        (a = ins ∧ t.IsChild n b)) ∧
      t'.root = t.root ∧
      (∀ r ∈ t.graph.edges, (r.w.isPrimary = false ∨ r.src ≠ n) → r ∈ t'.graph.edges) ∧
      (∀ r ∈ t'.graph.edges, r ∈ t.graph.edges ∨
        (r.src = n ∧ r.tgt = ins ∧ r.w = .primary none) ∨
        (r.src = ins ∧ t.IsChild n r.tgt ∧ r.w = .primary none)) := by
  have G := C.graph
  have S := C.shape
  have hnl : t.Live n := ⟨_, hn⟩
  obtain ⟨hfree, hnode1, hedges1, G1, _, _, _, _, _⟩ :=
    Graph.addNode_spec G (.nt (NonTerminal.new label x.span))
  set g1 := (t.graph.addNode (.nt (NonTerminal.new label x.span))).1 with hg1
  set ins := (t.graph.addNode (.nt (NonTerminal.new label x.span))).2 with hins
  have hadd : t.graph.addNode (.nt (NonTerminal.new label x.span)) = (g1, ins) := rfl
  have hdead : ¬ t.Live ins := by rintro ⟨x, hx⟩; rw [hfree] at hx; simp at hx
  have hinsn : ins ≠ n := by rintro e; rw [e] at hdead; exact hdead hnl
  have hlive1 : ∀ m, g1.Live m ↔ m = ins ∨ t.graph.Live m := by
    intro m
    unfold Graph.Live
    rw [hnode1]
    by_cases e : m = ins
    · simp [e]
    · simp [e]
  have hnoedge : ∀ r ∈ t.graph.edges, r.src ≠ ins ∧ r.tgt ≠ ins := by
    intro r hr
    obtain ⟨h1, h2⟩ := G.ends r hr
    exact ⟨fun e => hdead (e ▸ h1), fun e => hdead (e ▸ h2)⟩
  have hnochild : ∀ a b, t.IsChild a b → a ≠ ins ∧ b ≠ ins := by
    rintro a b ⟨r, hr, rfl, rfl, _⟩
    exact hnoedge r hr
  obtain ⟨g2, e2, l1, l2, l3, l4, l5, l6⟩ := Graph.addEdge_spec G1
    ((hlive1 n).2 (.inr hnl)) ((hlive1 ins).2 (.inl rfl)) (.primary none)
  have hlive2 : ∀ m, g2.Live m ↔ m = ins ∨ t.graph.Live m := fun m => by
    rw [← hlive1]; unfold Graph.Live Graph.node?; rw [l3]
  have hcs : ∀ c ∈ t.children n, ∃ r ∈ t.graph.edges, r.src = n ∧ r.tgt = c.1 ∧ r.id = c.2 ∧
      r.w.isPrimary = true := by
    intro c hc
    obtain ⟨r, h⟩ := mem_children.1 (show (c.1, c.2) ∈ t.children n from hc)
    exact ⟨r, by tauto⟩
  obtain ⟨g3, new, k1, k2, k3, k4, k5, k6⟩ := moveEdges_spec (g := g2) ins (t.children n) l6
    ((hlive2 ins).2 (.inl rfl)) (fun c hc => by
      obtain ⟨r, h1, h2, h3, h4, h5⟩ := hcs c hc
      refine ⟨(hlive2 _).2 (.inr ?_), r, by rw [l2, hedges1]; simp [h1], h4⟩
      rw [← h3]; exact (G.ends r h1).2) (children_ids_nodup G n)
  have hids : ∀ r ∈ t.graph.edges, r.id ∈ (t.children n).map (·.2) ↔
      r.src = n ∧ r.w.isPrimary = true := by
    intro r hr
    constructor
    · intro hm
      obtain ⟨c, hc, e⟩ := List.mem_map.1 hm
      obtain ⟨r', h1, h2, h3, h4, h5⟩ := hcs c hc
      have := G.edge_ext hr h1 (e.symm.trans h4.symm)
      subst this
      exact ⟨h2, h5⟩
    · rintro ⟨h1, h2⟩
      exact List.mem_map.2 ⟨(r.tgt, r.id), mem_children.2 ⟨r, by tauto⟩, rfl⟩
  have he2 : e2 ∉ (t.children n).map (·.2) := by
    intro hm
    obtain ⟨c, hc, e⟩ := List.mem_map.1 hm
    obtain ⟨r, h1, _, _, h4, _⟩ := hcs c hc
    exact l5 r (by rw [hedges1]; exact h1) (h4.trans e)
  set t2 : Tree := { t with graph := g3 } with ht2
  have hE : t2.graph.edges = new ++ ⟨e2, n, ins, .primary none⟩ ::
      t.graph.edges.filter (fun r => r.id ∉ (t.children n).map (·.2)) := by
    rw [show t2.graph.edges = _ from k2, l2, hedges1, List.filter_cons_of_pos (by simpa using he2)]
  have hnode : ∀ m, t2.graph.node? m = g1.node? m := fun m => by
    unfold Graph.node?; rw [show t2.graph.nodes = g1.nodes from k3.trans l3]
  have hnew : ∀ r ∈ new, r.src = ins ∧ t.IsChild n r.tgt ∧ r.w = .primary none := by
    intro r hr
    refine ⟨(k6 r hr).1, ?_, (k6 r hr).2⟩
    have : r.tgt ∈ new.map (·.tgt) := List.mem_map.2 ⟨r, hr, rfl⟩
    rw [k5, List.mem_reverse] at this
    exact mem_children_fst.1 this
  have hch : ∀ a b, t2.IsChild a b ↔ (t.IsChild a b ∧ a ≠ n) ∨ (a = n ∧ b = ins) ∨
        (a = ins ∧ t.IsChild n b) := by
    intro a b
    constructor
    · rintro ⟨r, hr, rfl, rfl, hw⟩
      rw [hE] at hr
      rcases List.mem_append.1 hr with hr | hr
      · exact .inr (.inr ⟨(hnew r hr).1, (hnew r hr).2.1⟩)
      · rcases List.mem_cons.1 hr with rfl | hr
        · exact .inr (.inl ⟨rfl, rfl⟩)
        · rw [List.mem_filter] at hr
          refine .inl ⟨⟨r, hr.1, rfl, rfl, hw⟩, ?_⟩
          intro e
          have h2 : r.id ∉ (t.children n).map (·.2) := by simpa using hr.2
          exact h2 ((hids r hr.1).2 ⟨e, hw⟩)
    · rintro (⟨⟨r, hr, rfl, rfl, hw⟩, hne⟩ | ⟨rfl, rfl⟩ | ⟨rfl, h⟩)
      · refine ⟨r, ?_, rfl, rfl, hw⟩
        rw [hE]
        refine List.mem_append_right _ (List.mem_cons_of_mem _ (List.mem_filter.2 ⟨hr, ?_⟩))
        have : r.id ∉ (t.children n).map (·.2) := fun hm => hne ((hids r hr).1 hm).1
        simpa using this
      · exact ⟨_, by rw [hE]; exact List.mem_append_right _ List.mem_cons_self, rfl, rfl, rfl⟩
      · have : b ∈ new.map (·.tgt) := by rw [k5, List.mem_reverse]; exact mem_children_fst.2 h
        obtain ⟨r, hr, e⟩ := List.mem_map.1 this
        exact ⟨r, by rw [hE]; exact List.mem_append_left _ hr, (hnew r hr).1, e, by
          rw [(hnew r hr).2.2]; rfl⟩
  have hu : t2.Uniq := by
    intro r hr s hs hrs hw hw'
    rw [hE] at hr hs
    have hnn : (new.map (·.tgt)).Nodup := by
      rw [k5, List.nodup_reverse]; exact children_nodup G S n
    have hcase : ∀ r, r ∈ new ++ ⟨e2, n, ins, .primary none⟩ ::
        t.graph.edges.filter (fun r => r.id ∉ (t.children n).map (·.2)) → r.w.isPrimary = true →
        (r ∈ new ∧ t.IsChild n r.tgt) ∨ (r = ⟨e2, n, ins, .primary none⟩) ∨
        (r ∈ t.graph.edges ∧ ¬ t.IsChild n r.tgt ∧ t.IsChild r.src r.tgt) := by
      intro r hr hw
      rcases List.mem_append.1 hr with hr | hr
      · exact .inl ⟨hr, (hnew r hr).2.1⟩
      · rcases List.mem_cons.1 hr with rfl | hr
        · exact .inr (.inl rfl)
        · rw [List.mem_filter] at hr
          have h2 : r.id ∉ (t.children n).map (·.2) := by simpa using hr.2
          have hch : t.IsChild r.src r.tgt := ⟨r, hr.1, rfl, rfl, hw⟩
          refine .inr (.inr ⟨hr.1, fun h => h2 ((hids r hr.1).2 ⟨?_, hw⟩), hch⟩)
          exact S.isChild_unique hch h
    rcases hcase r hr hw with ⟨h1, h1'⟩ | rfl | ⟨h1, h1', h1''⟩ <;>
      rcases hcase s hs hw' with ⟨h2, h2'⟩ | rfl | ⟨h2, h2', h2''⟩
    · exact List.inj_on_of_nodup_map hnn h1 h2 hrs
    · rw [hrs] at h1'; exact absurd rfl (hnochild _ _ h1').2
    · rw [hrs] at h1'; exact absurd h1' h2'
    · rw [← hrs] at h2'; exact absurd rfl (hnochild _ _ h2').2
    · rfl
    · rw [← hrs] at h2''; exact absurd rfl (hnochild _ _ h2'').2
    · rw [hrs] at h1'; exact absurd h2' h1'
    · rw [hrs] at h1''; exact absurd rfl (hnochild _ _ h1'').2
    · exact S.unique r h1 s h2 hrs hw hw'
  have hself : ¬ t2.IsChild ins ins := by
    rw [hch]
    rintro (⟨h, _⟩ | ⟨h, _⟩ | ⟨_, h⟩)
    · exact (hnochild _ _ h).1 rfl
    · exact hinsn h
    · exact (hnochild _ _ h).2 rfl
  have hinsnode : t2.graph.node? ins = some (.nt (NonTerminal.new label x.span)) := by
    rw [hnode, hnode1, if_pos rfl]
  have hcut : Cut t2 t ins := by
    refine ⟨?_, ⟨_, hinsnode⟩, hfree, fun m hm => by rw [hnode, hnode1, if_neg hm]⟩
    intro a b
    rw [hch, hch, hch]
    constructor
    · intro h
      refine ⟨(hnochild _ _ h).1, (hnochild _ _ h).2, ?_⟩
      by_cases e : a = n
      · subst e
        exact .inr ⟨.inr (.inl ⟨rfl, rfl⟩), .inr (.inr ⟨rfl, h⟩)⟩
      · exact .inl (.inl ⟨h, e⟩)
    · rintro ⟨h1, h2, (⟨h, _⟩ | ⟨_, h⟩ | ⟨h, _⟩) | ⟨h3, h4⟩⟩
      · exact h
      · exact absurd h h2
      · exact absurd h h1
      · have hac : a = n := by
          rcases h3 with ⟨h, _⟩ | ⟨h, _⟩ | ⟨h, _⟩
          · exact absurd rfl (hnochild _ _ h).2
          · exact h
          · exact absurd h h1
        have hbc : t.IsChild n b := by
          rcases h4 with ⟨h, _⟩ | ⟨h, _⟩ | ⟨_, h⟩
          · exact absurd rfl (hnochild _ _ h).1
          · exact absurd h hinsn
          · exact h
        rw [hac]; exact hbc
  have hnt : t2.IsNt ins := ⟨_, hinsnode⟩
  have hnnt : t.IsNt n := ⟨_, hn⟩
  obtain ⟨c0, hc0⟩ := S.nt_child n hnnt
  have S' : t2.Shape := by
    refine hcut.shape_up k4 S hu hself ?_ (fun _ => ⟨c0, (hch _ _).2 (.inr (.inr ⟨rfl, hc0⟩))⟩)
      (.inl ⟨rfl, n, Ne.symm hinsn, (hch _ _).2 (.inr (.inl ⟨rfl, rfl⟩))⟩)
    intro m b hm hb
    have hm' : m ≠ ins := by rintro rfl; exact not_isTerm_isNt hm hnt
    have hmt := (hcut.isTerm m).2 ⟨hm', hm⟩
    rcases (hch m b).1 hb with ⟨h, _⟩ | ⟨h, _⟩ | ⟨h, _⟩
    · exact S.term_leaf m _ hmt h
    · subst h; exact not_isTerm_isNt hmt hnnt
    · exact hm' h
  refine ⟨t2, ins, ?_, ⟨k4, S', hcut.sentence_up hnt C.sentence rfl, ?_⟩, hcut, hinsnode, rfl, rfl,
    hch, rfl, ?_, ?_⟩
  · unfold insertUnaryBelow
    rw [node_eq hn]
    exact Res.bind_eq_ok.2 ⟨_, rfl, Res.bind_eq_ok.2 ⟨_, l1, Res.bind_eq_ok.2 ⟨g3, k1, rfl⟩⟩⟩
  · refine hcut.spans_up hself hnt C.spans ?_
    intro nd' hnd'
    rw [hinsnode] at hnd'
    simp only [Option.some.injEq] at hnd'
    subst hnd'
    obtain ⟨h1, h2⟩ := C.spanRight n _ hn
    refine ⟨h1, fun i => ?_⟩
    have : t2.Covers n i ↔ t2.Covers ins i := by
      rw [covers_nt (((hcut.isNt n).1 hnnt).2)]
      constructor
      · rintro ⟨b, hb, hcov⟩
        rcases (hch n b).1 hb with ⟨_, h⟩ | ⟨_, h⟩ | ⟨h, _⟩
        · exact absurd rfl h
        · rw [← h]; exact hcov
        · exact absurd h.symm hinsn
      · intro hcov
        exact ⟨ins, (hch _ _).2 (.inr (.inl ⟨rfl, rfl⟩)), hcov⟩
    rw [← this, ← hcut.covers_nt hself hnt (Ne.symm hinsn)]
    exact h2 i
  · intro r hr h
    rw [hE]
    refine List.mem_append_right _ (List.mem_cons_of_mem _ (List.mem_filter.2 ⟨hr, ?_⟩))
    have : r.id ∉ (t.children n).map (·.2) := by
      intro hm
      obtain ⟨h1, h2⟩ := (hids r hr).1 hm
      rcases h with h | h
      · rw [h2] at h; simp at h
      · exact h h1
    simpa using this
  · intro r hr
    rw [hE] at hr
    rcases List.mem_append.1 hr with hr | hr
    · exact .inr (.inr (hnew r hr))
    · rcases List.mem_cons.1 hr with rfl | hr
      · exact .inr (.inl ⟨rfl, rfl, rfl⟩)
      · exact .inl (List.mem_filter.1 hr).1

end Tree
end Lumberjack
