import Verif.Proofs.Alike
import Verif.Proofs.Remove
import Verif.Proofs.ReattachAny

/-!
# The operations on trees keep twins
-/

namespace Lumberjack
namespace Tree

/-- Two trees that differ at most in the indices of the edges and in the order of edges into different nodes, with
consistent graphs. -/
structure Alike (t u : Tree) : Prop where
  graph : t.graph.Alike u.graph
  root : t.root = u.root
  nTerminals : t.nTerminals = u.nTerminals
  numDisc : t.numDisc = u.numDisc

variable {t u t' u' : Tree}

theorem Twin.alike (h : Twin t u) (G : t.graph.OK) (G' : u.graph.OK) : Alike t u :=
  ⟨⟨h.nodes, h.free, h.into, G, G'⟩, h.root, h.nTerminals, h.numDisc⟩

theorem parent_eq (t : Tree) (n : Nat) : t.parent n = (t.graph.parentRec n).map fun r => (r.src, r.id) := rfl

/-- Two states of climbers that will return the same nodes. -/
def Cur (c c' : Option (Nat × Nat)) : Prop := c.map (·.1) = c'.map (·.1)

theorem Cur.cases {c c' : Option (Nat × Nat)} (h : Cur c c') :
    (c = none ∧ c' = none) ∨ ∃ p e e', c = some (p, e) ∧ c' = some (p, e') := by
  unfold Cur at h
  cases c with
  | none =>
    cases c' with
    | none => exact .inl ⟨rfl, rfl⟩
    | some x => cases h
  | some x =>
    cases c' with
    | none => cases h
    | some y =>
      simp only [Option.map_some, Option.some.injEq] at h
      exact .inr ⟨x.1, x.2, y.2, rfl, by rw [h]⟩

namespace Alike

theorem twin (h : Alike t u) : Twin t u := ⟨h.graph.nodes, h.graph.free, h.graph.into, h.root, h.nTerminals, h.numDisc⟩

theorem node? (h : Alike t u) (n : Nat) : t.graph.node? n = u.graph.node? n := h.graph.node? n

theorem node (h : Alike t u) (n : Nat) : t.node n = u.node n := by unfold Tree.node; rw [h.node?]

theorem live (h : Alike t u) (n : Nat) : t.Live n ↔ u.Live n := h.graph.live n

theorem terminals (h : Alike t u) : t.terminals = u.terminals := by
  unfold Tree.terminals; simp only [h.graph.nodeIndices, h.node?]

theorem nonterminals (h : Alike t u) : t.nonterminals = u.nonterminals := by
  unfold Tree.nonterminals; simp only [h.graph.nodeIndices, h.node?]

theorem climbFuel (h : Alike t u) : t.climbFuel = u.climbFuel := by
  unfold Tree.climbFuel; rw [h.graph.nodes]

theorem parent (h : Alike t u) (n : Nat) : Cur (t.parent n) (u.parent n) := by
  unfold Cur
  rw [parent_eq, parent_eq, Option.map_map, Option.map_map]
  have := congrArg (Option.map Prod.fst) (h.graph.parentRec n)
  rw [Option.map_map, Option.map_map] at this
  exact this

theorem children (h : Alike t u) (n : Nat) : ((t.children n).map (·.1)).Perm ((u.children n).map (·.1)) := by
  unfold Tree.children
  rw [List.map_map, List.map_map]
  exact h.graph.out_perm n

theorem children_length (h : Alike t u) (n : Nat) : (t.children n).length = (u.children n).length := by
  have := (h.children n).length_eq
  simpa using this

theorem siblings_length (h : Alike t u) (n : Nat) : (t.siblings n).length = (u.siblings n).length := by
  unfold siblings
  rcases (h.parent n).cases with ⟨h1, h2⟩ | ⟨p, e, e', h1, h2⟩
  · rw [h1, h2]
  · rw [h1, h2]
    have := ((h.children p).filter (fun x => decide (x ≠ n))).length_eq
    rw [List.filter_map, List.filter_map, List.length_map, List.length_map] at this
    exact this

theorem cmpNodes (h : Alike t u) (a b : Nat) : t.cmpNodes a b = u.cmpNodes a b := by
  unfold Tree.cmpNodes
  rw [h.node?, h.node?, h.children_length, h.children_length]

theorem sortIndices (h : Alike t u) (l : List Nat) : t.sortIndices l = u.sortIndices l := by
  unfold Tree.sortIndices
  simp only [h.cmpNodes]

theorem setNode (h : Alike t u) {n : Nat} (hn : t.Live n) (nd : Node) : Alike (t.setNode n nd) (u.setNode n nd) :=
  ⟨h.graph.setNode hn nd, h.root, h.nTerminals, h.numDisc⟩

theorem projectivityChange (h : Alike t u) (a b : Continuity) :
    Rel Alike (t.projectivityChange a b) (u.projectivityChange a b) := by
  unfold Tree.projectivityChange
  split
  · exact .ok ⟨h.graph, h.root, h.nTerminals, by simp only [h.numDisc]⟩
  · refine (Rel.of_eq (by rw [h.numDisc])).bind ?_
    rintro a b rfl
    exact .ok ⟨h.graph, h.root, h.nTerminals, rfl⟩
  · exact .ok h

/-- Reading the same node of both trees. -/
theorem bind_node {γ δ : Type} {S : γ → δ → Prop} (h : Alike t u) (n : Nat) {f : Node → Res γ} {g : Node → Res δ}
    (hf : ∀ nd, t.graph.node? n = some nd → Rel S (f nd) (g nd)) : Rel S (t.node n >>= f) (u.node n >>= g) := by
  rw [← h.node]
  cases hn : t.graph.node? n with
  | none =>
    unfold Tree.node
    rw [hn]
    exact .panic
  | some nd =>
    rw [node_eq hn]
    exact hf nd hn

theorem removeCoverage (h : Alike t u) (cov : List Nat) (n : Nat) :
    Rel Alike (t.removeCoverage cov n) (u.removeCoverage cov n) := by
  unfold Tree.removeCoverage
  refine h.bind_node n fun nd hn => ?_
  refine Rel.rfl.bind ?_
  rintro x _ rfl
  refine Rel.rfl.bind ?_
  rintro ⟨sp, af⟩ _ rfl
  exact (h.setNode ⟨_, hn⟩ _).projectivityChange _ _

theorem climberNext (_ : Alike t u) {c c' : Option (Nat × Nat)} (hc : Cur c c') :
    (c = none ∧ c' = none ∧ t.climberNext c = (none, none) ∧ u.climberNext c' = (none, none)) ∨
    ∃ p e e', c = some (p, e) ∧ c' = some (p, e') ∧ t.climberNext c = (some (p, e), t.parent p) ∧
      u.climberNext c' = (some (p, e'), u.parent p) := by
  rcases hc.cases with ⟨rfl, rfl⟩ | ⟨p, e, e', rfl, rfl⟩
  · exact .inl ⟨rfl, rfl, rfl, rfl⟩
  · exact .inr ⟨p, e, e', rfl, rfl, rfl, rfl⟩

theorem detachSpans (h : Alike t u) (q p c : Nat) : Rel Alike (t.detachSpans q p c) (u.detachSpans q p c) := by
  unfold Tree.detachSpans
  rw [h.climbFuel]
  refine Rel.loop (R := fun a b => Cur a.1 b.1 ∧ a.2 = b.2) ?_ _ _ _ ⟨h.parent p, rfl⟩
  rintro ⟨c1, l⟩ ⟨c2, l'⟩ ⟨hc, hl⟩
  simp only at hc hl
  subst hl
  simp only
  rcases h.climberNext hc with ⟨_, _, h3, h4⟩ | ⟨x, e, e', _, _, h3, h4⟩
  · rw [h3, h4]
    exact .ok (.inr h)
  · rw [h3, h4]
    simp only
    split
    · refine h.bind_node c fun nd _ => ?_
      refine (Rel.forM (fun _ a b => Alike a b) (fun i is a b hab => hab.removeCoverage _ i) _ _ _ h).bind ?_
      intro a b hab
      exact .ok (.inr hab)
    · exact .ok (.inl ⟨h.parent x, rfl⟩)

theorem attachSpans (h : Alike t u) (c : Nat) (cs : Span) : Rel Alike (t.attachSpans c cs) (u.attachSpans c cs) := by
  unfold Tree.attachSpans
  rw [h.climbFuel]
  refine Rel.loop (R := fun a b => Cur a.1 b.1 ∧ Alike a.2 b.2) ?_ _ _ _ ⟨h.parent c, h⟩
  rintro ⟨c1, a⟩ ⟨c2, b⟩ ⟨hc, hab⟩
  simp only at hc hab
  simp only
  rcases hab.climberNext hc with ⟨_, _, h3, h4⟩ | ⟨x, e, e', _, _, h3, h4⟩
  · rw [h3, h4]
    exact .ok (.inr hab)
  · rw [h3, h4]
    simp only
    refine hab.bind_node x fun nd hn => ?_
    split
    · exact .ok (.inr hab)
    · refine Rel.rfl.bind ?_
      rintro nt _ rfl
      refine Rel.rfl.bind ?_
      rintro sp _ rfl
      refine ((hab.setNode ⟨_, hn⟩ _).projectivityChange _ _).bind ?_
      intro a' b' h'
      exact .ok (.inl ⟨hab.parent x, h'⟩)

/-- Results of `reattach_node` that agree up to the index of the new edge. -/
def SameOut (x y : Except Err (Nat × Edge)) : Prop :=
  (∃ e, x = .error e ∧ y = .error e) ∨ ∃ i j w, x = .ok (i, w) ∧ y = .ok (j, w)

theorem reattachPrimary (h : Alike t u) (q : Nat) {c : Nat} {r r' : EdgeRec} (hr : t.graph.parentRec c = some r)
    (hr' : u.graph.parentRec c = some r') :
    Rel (fun x y => Alike x.1 y.1 ∧ SameOut x.2 y.2) (t.reattachPrimary q r.id) (u.reattachPrimary q r'.id) := by
  have m1 := Graph.parentRec_mem hr
  have m2 := Graph.parentRec_mem hr'
  obtain ⟨r'', k1, k2, k3⟩ := h.graph.parent_some hr
  rw [hr'] at k1
  cases k1
  unfold Tree.reattachPrimary
  rw [(Graph.edge?_eq h.graph.left).2 ⟨m1.1, rfl⟩, (Graph.edge?_eq h.graph.right).2 ⟨m2.1, rfl⟩]
  simp only [Res.ofOption_some, Res.ok_bind, m1.2.1, m2.2.1, k2]
  refine h.bind_node q fun nd _ => ?_
  split
  · exact .ok ⟨h, .inl ⟨_, rfl, rfl⟩⟩
  · rw [h.siblings_length]
    split
    · exact .ok ⟨h, .inl ⟨_, rfl, rfl⟩⟩
    · have key : Rel (fun a b => Alike a b ∧ a.graph.parentRec c = some r ∧ b.graph.parentRec c = some r')
          (t.detachSpans q r.src c) (u.detachSpans q r.src c) := by
        intro a b ha hb
        refine ⟨h.detachSpans q _ c a b ha hb, ?_, ?_⟩
        · rw [← hr]; unfold Graph.parentRec Graph.inEdges; rw [(detachSpans_edit ha).edges]
        · rw [← hr']; unfold Graph.parentRec Graph.inEdges; rw [(detachSpans_edit hb).edges]
      refine key.bind ?_
      rintro a b ⟨hab, ha, hb⟩
      refine (Rel.ofOption (R := fun x y : Graph × Edge => x.1.Alike y.1 ∧ x.2 = y.2)
        fun x y hx hy => hab.graph.removeParent ha hb hx hy).bind ?_
      rintro ⟨g2, w⟩ ⟨h2, w'⟩ ⟨hg, hw⟩
      simp only at hg hw
      subst hw
      simp only
      refine (hg.addEdge q c (.primary none)).bind ?_
      rintro ⟨g3, i⟩ ⟨h3, j⟩ hg3
      simp only at hg3
      simp only
      have hA : Alike ({ a with graph := g3 } : Tree) ({ b with graph := h3 } : Tree) :=
        ⟨hg3, hab.root, hab.nTerminals, hab.numDisc⟩
      refine hA.bind_node c fun cn _ => ?_
      refine (hA.attachSpans c cn.span).bind ?_
      intro a' b' h'
      exact .ok ⟨h', .inr ⟨i, j, w, rfl, rfl⟩⟩

theorem reattachNode (h : Alike t u) (q : Nat) {c : Nat} {r r' : EdgeRec} (hr : t.graph.parentRec c = some r)
    (hr' : u.graph.parentRec c = some r') :
    Rel (fun x y => Alike x.1 y.1 ∧ SameOut x.2 y.2) (t.reattachNode q r.id) (u.reattachNode q r'.id) := by
  have m1 := Graph.parentRec_mem hr
  have m2 := Graph.parentRec_mem hr'
  have hp := h.reattachPrimary q hr hr'
  unfold Tree.reattachNode
  rw [h.graph.contains, (Graph.edge?_eq h.graph.left).2 ⟨m1.1, rfl⟩, (Graph.edge?_eq h.graph.right).2 ⟨m2.1, rfl⟩]
  refine Rel.rfl.bind ?_
  rintro x _ rfl
  simp only [Res.ofOption_some, Res.ok_bind, m1.2.1, m2.2.1]
  split
  · exact .ok ⟨h, .inl ⟨_, rfl, rfl⟩⟩
  · cases hw : r.w with
    | secondary l => rw [hw] at m1; simp [Edge.isPrimary] at m1
    | primary l =>
      cases hw' : r'.w with
      | secondary l => rw [hw'] at m2; simp [Edge.isPrimary] at m2
      | primary l' => exact hp

theorem insertUnaryAbove (h : Alike t u) (c : Nat) (label : Str) :
    Rel (fun x y => Alike x.1 y.1 ∧ x.2 = y.2) (t.insertUnaryAbove c label) (u.insertUnaryAbove c label) := by
  unfold Tree.insertUnaryAbove
  refine h.bind_node c fun nd hc => ?_
  obtain ⟨hg, hi⟩ := h.graph.addNode (.nt (NonTerminal.new label nd.span))
  generalize t.graph.addNode (.nt (NonTerminal.new label nd.span)) = x at hg hi ⊢
  generalize u.graph.addNode (.nt (NonTerminal.new label nd.span)) = y at hg hi ⊢
  obtain ⟨g1, ins⟩ := x
  obtain ⟨h1, ins'⟩ := y
  simp only at hg hi
  subst hi
  simp only [parent_eq]
  cases hr : g1.parentRec c with
  | none =>
    have := hg.parentRec c
    rw [hr] at this
    have hr' : h1.parentRec c = none := by
      cases hh : h1.parentRec c with
      | none => rfl
      | some r => rw [hh] at this; cases this
    rw [hr']
    simp only [Option.map_none]
    refine (hg.addEdge ins c (.primary none)).bind ?_
    rintro ⟨g2, i⟩ ⟨h2, j⟩ hg2
    exact .ok ⟨⟨hg2, by simp only [h.root], h.nTerminals, h.numDisc⟩, rfl⟩
  | some r =>
    obtain ⟨r', hr', k1, k2⟩ := hg.parent_some hr
    rw [hr']
    simp only [Option.map_some]
    refine (Rel.ofOption (R := fun x y : Graph × Edge => x.1.Alike y.1 ∧ x.2 = y.2)
        fun x y hx hy => hg.removeParent hr hr' hx hy).bind ?_
    rintro ⟨g2, w⟩ ⟨h2, w'⟩ ⟨hg2, hw⟩
    simp only at hg2 hw
    subst hw
    simp only [k1]
    refine (hg2.addEdge r.src ins (.primary none)).bind ?_
    rintro ⟨g3, i⟩ ⟨h3, j⟩ hg3
    simp only at hg3
    simp only
    refine (hg3.addEdge ins c w).bind ?_
    rintro ⟨g4, i⟩ ⟨h4, j⟩ hg4
    exact .ok ⟨⟨hg4, h.root, h.nTerminals, h.numDisc⟩, rfl⟩

theorem finishRemove (h : Alike t u) (n : Nat) :
    Rel (fun x y => Alike x.1 y.1 ∧ x.2 = y.2) (t.finishRemove n) (u.finishRemove n) := by
  unfold Tree.finishRemove
  refine (Rel.ofOption (R := fun x y : Graph × Node => x.1.Alike y.1 ∧ x.2 = y.2)
        fun x y hx hy => h.graph.removeNode hx hy).bind ?_
  rintro ⟨g, nd⟩ ⟨g', nd'⟩ ⟨hg, hn⟩
  simp only at hg hn
  subst hn
  simp only
  split
  · refine (Rel.of_eq (by rw [h.numDisc])).bind ?_
    rintro k _ rfl
    exact .ok ⟨⟨hg, h.root, h.nTerminals, rfl⟩, rfl⟩
  · exact .ok ⟨⟨hg, h.root, h.nTerminals, h.numDisc⟩, rfl⟩

end Alike

theorem children_live (G : t.graph.OK) (n : Nat) : ∀ c ∈ t.children n, t.Live c.1 := by
  intro c hc
  unfold children Graph.outEdges at hc
  simp only [List.mem_map, List.mem_filter] at hc
  obtain ⟨r, ⟨⟨hr, _⟩, _⟩, rfl⟩ := hc
  exact (G.ends r hr).2

/-- Adding edges from one node to several, in any order. -/
theorem Alike.addEdges (h : Alike t u) (p : Nat) {cs ds : List (Nat × Nat)} (hp : t.Live p)
    (hc : ∀ c ∈ cs, t.Live c.1) (hperm : (cs.map (·.1)).Perm (ds.map (·.1))) :
    Rel Graph.Alike (forM' (fun (g : Graph) (c : Nat × Nat) => do
        let (g', _) ← g.addEdge p c.1 (.primary none)
        return g') cs t.graph) (forM' (fun (g : Graph) (c : Nat × Nat) => do
        let (g', _) ← g.addEdge p c.1 (.primary none)
        return g') ds u.graph) := by
  have hd : ∀ d ∈ ds, u.graph.Live d.1 := by
    intro d hd
    have := hperm.mem_iff.2 (List.mem_map.2 ⟨d, hd, rfl⟩)
    obtain ⟨c, hc', e⟩ := List.mem_map.1 this
    rw [← e]
    exact (h.live _).1 (hc c hc')
  obtain ⟨g, new, a1, a2, a3, a4, a5, a6, a7, _⟩ := addEdges_spec p cs h.graph.left hp hc
  obtain ⟨g', new', b1, b2, b3, b4, b5, b6, b7, _⟩ := addEdges_spec p ds h.graph.right ((h.live p).1 hp) hd
  rw [a1, b1]
  refine .ok ⟨a3.trans (h.graph.nodes.trans b3.symm), a4.trans (h.graph.free.trans b4.symm), fun c => ?_, a5, b5⟩
  have key : ∀ {g g0 : Graph} {new : List EdgeRec}, g.edges = new ++ g0.edges →
      (∀ r ∈ new, r.src = p ∧ r.w = .primary none) →
      g.into c = List.replicate ((new.map (·.tgt)).count c) (p, Edge.primary none) ++ g0.into c := by
    intro g g0 new he hn
    unfold Graph.into Graph.inEdges
    rw [he, List.filter_append, List.map_append]
    congr 1
    rw [List.eq_replicate_iff]
    constructor
    · rw [List.length_map, List.count_eq_countP, List.countP_map, List.countP_eq_length_filter]
      congr 1
    · intro x hx
      obtain ⟨r, hr, rfl⟩ := List.mem_map.1 hx
      obtain ⟨e1, e2⟩ := hn r (List.mem_of_mem_filter hr)
      simp only [e1, e2]
  rw [key a2 a7, key b2 b7, a6, b6, List.count_reverse, List.count_reverse, hperm.count_eq, h.graph.into]

theorem Alike.removeNonterminal (h : Alike t u) (n : Nat) :
    Rel (fun x y => Alike x.1 y.1 ∧ x.2 = y.2) (t.removeNonterminal n) (u.removeNonterminal n) := by
  unfold Tree.removeNonterminal
  refine h.bind_node n fun nd hn => ?_
  refine Rel.rfl.bind ?_
  rintro _ _ rfl
  rcases (h.parent n).cases with ⟨h1, h2⟩ | ⟨p, e, e', h1, h2⟩
  · rw [h1, h2]
    simp only
    have hp := h.children t.root
    rw [show u.children t.root = u.children u.root by rw [h.root]] at hp
    generalize t.children t.root = l at hp ⊢
    generalize u.children u.root = l' at hp ⊢
    match l, l', hp with
    | [], [], _ => exact .ok ⟨h, rfl⟩
    | [], _ :: _, hp => exact absurd hp.length_eq (by simp)
    | _ :: _, [], hp => exact absurd hp.length_eq (by simp)
    | [(c, i)], [(d, j)], hp =>
      simp only [List.map_cons, List.map_nil, List.perm_singleton, List.cons.injEq, and_true] at hp
      subst hp
      exact Alike.finishRemove (t := { t with root := c }) (u := { u with root := c })
        ⟨h.graph, rfl, h.nTerminals, h.numDisc⟩ n
    | [_], _ :: _ :: _, hp => exact absurd hp.length_eq (by simp)
    | _ :: _ :: _, [_], hp => exact absurd hp.length_eq (by simp)
    | _ :: _ :: _, _ :: _ :: _, _ => exact .ok ⟨h, rfl⟩
  · rw [h1, h2]
    simp only
    have hpl : t.Live p := by
      rw [parent_eq] at h1
      cases hr : t.graph.parentRec n with
      | none => rw [hr] at h1; cases h1
      | some r =>
        rw [hr] at h1
        simp only [Option.map_some, Option.some.injEq, Prod.mk.injEq] at h1
        rw [← h1.1]
        exact (h.graph.left.ends r (Graph.parentRec_mem hr).1).1
    refine (h.addEdges p hpl (children_live h.graph.left n) (h.children n)).bind ?_
    intro g g' hg
    exact Alike.finishRemove (t := { t with graph := g }) (u := { u with graph := g' })
      ⟨hg, h.root, h.nTerminals, h.numDisc⟩ n

theorem Alike.removeNode (h : Alike t u) {n : Nat} (hn : ¬ t.IsTerm n) :
    Rel (fun x y => Alike x.1 y.1 ∧ x.2 = y.2) (t.removeNode n) (u.removeNode n) := by
  unfold Tree.removeNode
  rw [h.graph.contains]
  refine Rel.rfl.bind ?_
  rintro _ _ rfl
  refine h.bind_node n fun nd hnd => ?_
  cases nd with
  | term x => exact absurd ⟨x, hnd⟩ hn
  | nt x => exact h.removeNonterminal n

theorem Alike.insertFeature (h : Alike t u) (n : Nat) (name value : Str) :
    Rel Alike (t.insertFeature n name value) (u.insertFeature n name value) := by
  unfold Tree.insertFeature
  refine h.bind_node n fun nd hn => ?_
  exact .ok (h.setNode ⟨_, hn⟩ _)

end Tree
end Lumberjack
