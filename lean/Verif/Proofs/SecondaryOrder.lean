import Verif.Proofs.AlikeSteps
import Verif.Proofs.Secondary

/-!
# Removing dummies and projectivizing do not look at secondary edges
-/

namespace Lumberjack
namespace Graph

/-- The primary edges without their indices, in their order. -/
def prim (g : Graph) : List (Nat × Nat × Edge) := (g.edges.filter (·.w.isPrimary)).map fun e => (e.src, e.tgt, e.w)

/-- Two graphs with the same nodes and primary edges. -/
structure Shade (g h : Graph) : Prop where
  nodes : h.nodes = g.nodes
  free : h.freeNodes = g.freeNodes
  prim : h.prim = g.prim

variable {g h : Graph}

theorem Shade.node? (S : Shade g h) (n : Nat) : h.node? n = g.node? n := by unfold Graph.node?; rw [S.nodes]

theorem Shade.contains (S : Shade g h) (n : Nat) : h.contains n = g.contains n := by unfold Graph.contains; rw [S.node?]

theorem neighbors_prim (g : Graph) (n : Nat) : g.primaryNeighbors n = (g.prim.filter (·.1 = n)).map (·.2.1) := by
  unfold primaryNeighbors Graph.prim outEdges
  rw [List.filter_map, List.map_map, List.filter_filter, List.filter_filter]
  congr 1
  apply List.filter_congr
  intro r _
  simp only [Function.comp]
  exact Bool.and_comm ..

theorem Shade.neighbors (S : Shade g h) (n : Nat) : h.primaryNeighbors n = g.primaryNeighbors n := by
  rw [neighbors_prim, neighbors_prim, S.prim]

theorem addEdge_prim {a b : Nat} {x : Graph × Nat} {w : Edge} (hw : w.isPrimary = true) (hx : g.addEdge a b w = .ok x) :
    x.1.nodes = g.nodes ∧ x.1.freeNodes = g.freeNodes ∧ x.1.prim = (a, b, w) :: g.prim := by
  unfold addEdge at hx
  obtain ⟨_, _, hx⟩ := Res.bind_eq_ok.1 hx
  split at hx
  all_goals
    simp only [Res.pure_eq, Res.ok.injEq] at hx
    rw [← hx]
    exact ⟨rfl, rfl, by simp [Graph.prim, hw]⟩

theorem Shade.addEdge (S : Shade g h) (a b : Nat) {w : Edge} (hw : w.isPrimary = true) :
    Rel (fun x y => Shade x.1 y.1) (g.addEdge a b w) (h.addEdge a b w) := by
  intro x y hx hy
  obtain ⟨a1, a2, a3⟩ := addEdge_prim hw hx
  obtain ⟨b1, b2, b3⟩ := addEdge_prim hw hy
  exact ⟨by rw [a1, b1, S.nodes], by rw [a2, b2, S.free], by rw [a3, b3, S.prim]⟩

theorem Shade.addEdges (S : Shade g h) (p : Nat) : ∀ (l l' : List (Nat × Nat)), l'.map (·.1) = l.map (·.1) →
    Rel Shade
      (forM' (fun (g : Graph) (c : Nat × Nat) => do let (g', _) ← g.addEdge p c.1 (.primary none); return g') l g)
      (forM' (fun (g : Graph) (c : Nat × Nat) => do let (g', _) ← g.addEdge p c.1 (.primary none); return g') l' h) := by
  intro l
  induction l generalizing g h with
  | nil =>
    intro l' e
    rw [List.map_nil, List.map_eq_nil_iff] at e
    subst e
    exact .ok S
  | cons c l ih =>
    intro l' e
    cases l' with
    | nil => cases e
    | cons d l' =>
      simp only [List.map_cons, List.cons.injEq] at e
      rw [forM'_cons, forM'_cons, e.1]
      refine Rel.bind (R := Shade) ((S.addEdge p c.1 rfl).bind fun x y hxy => .ok hxy) fun a b hab => ih hab l' e.2

theorem removeNode_prim {n : Nat} {x : Graph × Node} (hx : g.removeNode n = some x) : g.node? n = some x.2 ∧
    x.1.nodes = g.nodes.set n none ∧ x.1.freeNodes = n :: g.freeNodes ∧
    x.1.prim = g.prim.filter fun e => decide (e.1 ≠ n ∧ e.2.1 ≠ n) := by
  unfold removeNode at hx
  split at hx
  · rename_i nd h
    simp only [Option.some.injEq] at hx
    rw [← hx]
    refine ⟨h, rfl, rfl, ?_⟩
    unfold Graph.prim
    rw [List.filter_map, List.filter_filter, List.filter_filter]
    congr 1
    apply List.filter_congr
    intro r _
    simp only [Function.comp]
    exact Bool.and_comm ..
  · cases hx

theorem Shade.removeNode (S : Shade g h) (n : Nat) :
    Rel (fun x y => Shade x.1 y.1 ∧ x.2 = y.2) (Res.ofOption (g.removeNode n)) (Res.ofOption (h.removeNode n)) := by
  refine Rel.ofOption fun x y hx hy => ?_
  obtain ⟨a0, a1, a2, a3⟩ := removeNode_prim hx
  obtain ⟨b0, b1, b2, b3⟩ := removeNode_prim hy
  rw [S.node?, a0] at b0
  exact ⟨⟨by rw [a1, b1, S.nodes], by rw [a2, b2, S.free], by rw [a3, b3, S.prim]⟩, Option.some.inj b0⟩

end Graph

namespace Tree

variable {t t' u u' : Tree}

namespace OtherSecondary

theorem shade (H : OtherSecondary t u) : Graph.Shade t.graph u.graph := ⟨H.nodes, H.free, H.edges⟩

theorem mk' (S : Graph.Shade t.graph u.graph) (h1 : u.root = t.root) (h2 : u.nTerminals = t.nTerminals) (h3 : u.numDisc = t.numDisc) :
    OtherSecondary t u := ⟨S.nodes, S.free, S.prim, h1, h2, h3⟩

theorem node? (H : OtherSecondary t u) (n : Nat) : u.graph.node? n = t.graph.node? n := H.shade.node? n

theorem children (H : OtherSecondary t u) (n : Nat) : (u.children n).map (·.1) = (t.children n).map (·.1) := by
  have := H.shade.neighbors n
  unfold Graph.primaryNeighbors at this
  unfold Tree.children
  rw [List.map_map, List.map_map]
  exact this

theorem parent_prim (t : Tree) (n : Nat) : (t.parent n).map (·.1) = (t.graph.prim.find? (·.2.1 = n)).map (·.1) := by
  unfold Tree.parent Graph.inEdges Graph.prim
  rw [List.find?_filter, Option.map_map, List.find?_map, List.find?_filter, Option.map_map]
  simp only [Function.comp_def, Bool.and_comm, Bool.decide_and, Bool.decide_eq_true]

theorem parent (H : OtherSecondary t u) (n : Nat) : (u.parent n).map (·.1) = (t.parent n).map (·.1) := by
  rw [parent_prim, parent_prim, H.shade.prim]

theorem bind_node (H : OtherSecondary t u) (n : Nat) {α β : Type} {R : α → β → Prop} {f : Node → Res α} {g : Node → Res β}
    (h : ∀ nd, t.graph.node? n = some nd → Rel R (f nd) (g nd)) : Rel R (t.node n >>= f) (u.node n >>= g) := by
  unfold Tree.node
  rw [H.node?]
  cases hn : t.graph.node? n with
  | none => exact .panic
  | some nd => exact h nd hn

theorem finishRemove (H : OtherSecondary t u) (n : Nat) :
    Rel (fun x y => OtherSecondary x.1 y.1 ∧ x.2 = y.2) (t.finishRemove n) (u.finishRemove n) := by
  unfold Tree.finishRemove
  refine (H.shade.removeNode n).bind ?_
  rintro ⟨g, nd⟩ ⟨h, nd'⟩ ⟨S, e⟩
  simp only at S e
  subst e
  simp only
  split
  · rw [H.numDisc]
    refine Rel.rfl.bind ?_
    rintro k _ rfl
    exact .ok ⟨mk' S H.root H.nTerminals rfl, rfl⟩
  · exact .ok ⟨mk' S H.root H.nTerminals H.numDisc, rfl⟩

theorem removeNonterminal (H : OtherSecondary t u) (n : Nat) :
    Rel (fun x y => OtherSecondary x.1 y.1 ∧ x.2 = y.2) (t.removeNonterminal n) (u.removeNonterminal n) := by
  unfold Tree.removeNonterminal
  refine H.bind_node n fun nd hn => ?_
  refine Rel.rfl.bind ?_
  rintro _ _ rfl
  have hp := H.parent n
  cases h1 : t.parent n with
  | none =>
    cases h2 : u.parent n with
    | some x => rw [h1, h2] at hp; cases hp
    | none =>
      simp only
      have hc := H.children t.root
      rw [show u.children t.root = u.children u.root by rw [H.root]] at hc
      generalize t.children t.root = l at hc ⊢
      generalize u.children u.root = l' at hc ⊢
      match l, l', hc with
      | [], [], _ => exact .ok ⟨H, rfl⟩
      | [], _ :: _, hp => cases hp
      | _ :: _, [], hp => cases hp
      | [(c, i)], [(d, j)], hp =>
        simp only [List.map_cons, List.map_nil, List.cons.injEq, and_true] at hp
        subst hp
        exact finishRemove (t := { t with root := d }) (u := { u with root := d }) (mk' H.shade rfl H.nTerminals H.numDisc) n
      | [_], _ :: _ :: _, hp => simp at hp
      | _ :: _ :: _, [_], hp => simp at hp
      | _ :: _ :: _, _ :: _ :: _, _ => exact .ok ⟨H, rfl⟩
  | some x =>
    cases h2 : u.parent n with
    | none => rw [h1, h2] at hp; cases hp
    | some y =>
      obtain ⟨p, e⟩ := x
      obtain ⟨q, e'⟩ := y
      rw [h1, h2] at hp
      simp only [Option.map_some, Option.some.injEq] at hp
      subst hp
      simp only
      refine (H.shade.addEdges q _ _ (H.children n)).bind ?_
      intro g h S
      exact finishRemove (t := { t with graph := g }) (u := { u with graph := h }) (mk' S H.root H.nTerminals H.numDisc) n

theorem removeNode (H : OtherSecondary t u) {n : Nat} (hn : ¬ t.IsTerm n) :
    Rel (fun x y => OtherSecondary x.1 y.1 ∧ x.2 = y.2) (t.removeNode n) (u.removeNode n) := by
  unfold Tree.removeNode
  rw [H.shade.contains]
  refine Rel.rfl.bind ?_
  rintro _ _ rfl
  refine H.bind_node n fun nd hnd => ?_
  cases nd with
  | term x => exact absurd ⟨x, hnd⟩ hn
  | nt x => exact H.removeNonterminal n

theorem nonterminals (H : OtherSecondary t u) : u.nonterminals = t.nonterminals := by
  unfold Tree.nonterminals Graph.nodeIndices
  rw [H.nodes, List.filter_filter, List.filter_filter]
  apply List.filter_congr
  intro n _
  rw [H.node?, H.shade.contains]

theorem filterNonterminals (H : OtherSecondary t u) {f : Tree → Nat → Bool} (hf : ∀ a b n, OtherSecondary a b → f b n = f a n) :
    Rel (fun x y => x.2 = y.2 ∧ OtherSecondary x.1 y.1) (t.filterNonterminals f) (u.filterNonterminals f) := by
  unfold Tree.filterNonterminals
  rw [H.nonterminals, H.root]
  refine Rel.forE (fun l l' a b => l = l' ∧ OtherSecondary a b ∧ ∀ n ∈ l, ¬ a.IsTerm n) OtherSecondary (fun _ _ h => h.2.1)
    (fun _ _ _ _ h => by rw [h.1]) ?_ _ _ t u ⟨rfl, H, ?_⟩
  · rintro i is j js a b ⟨hl, hab, hi⟩
    simp only [List.cons.injEq] at hl
    obtain ⟨rfl, rfl⟩ := hl
    rw [hf a b i hab]
    split
    · have key : Rel (fun x y => (OtherSecondary x.1 y.1 ∧ ∀ n ∈ is, ¬ x.1.IsTerm n) ∧ x.2 = y.2) (a.removeNode i) (b.removeNode i) := by
        intro x y hx hy
        obtain ⟨k1, k2⟩ := hab.removeNode (hi i (by simp)) x y hx hy
        exact ⟨⟨k1, fun n hn hh => hi n (by simp [hn]) (removeNode_isTerm (hi i (by simp)) hx hh)⟩, k2⟩
      refine key.bind ?_
      rintro ⟨a', r⟩ ⟨b', r'⟩ ⟨⟨h1, h2⟩, h3⟩
      simp only at h1 h2 h3
      subst h3
      cases r with
      | ok nd => exact .ok ⟨rfl, h1, fun _ => ⟨rfl, h1, h2⟩⟩
      | error e => exact .ok ⟨rfl, h1, nofun⟩
    · exact .ok ⟨rfl, hab, fun _ => ⟨rfl, hab, fun n hn => hi n (by simp [hn])⟩⟩
  · intro n hn
    have := List.mem_of_mem_filter hn
    unfold Tree.nonterminals at this
    rintro ⟨x, hx⟩
    have h2 := (List.mem_filter.1 this).2
    rw [hx] at h2
    simp [Node.isTerminal] at h2

theorem removeDummyNodes (H : OtherSecondary t u) :
    Rel (fun x y => x.2 = y.2 ∧ OtherSecondary x.1 y.1) t.removeDummyNodes u.removeDummyNodes := by
  unfold Tree.removeDummyNodes
  refine (H.filterNonterminals fun a b n hab => by rw [hab.node?]).bind ?_
  rintro ⟨t1, r⟩ ⟨u1, r'⟩ ⟨e, H1⟩
  simp only at e H1
  subst e
  cases r with
  | error e => exact .ok ⟨rfl, H1⟩
  | ok v =>
    simp only
    rw [H1.root]
    refine H1.bind_node t1.root fun nd hn => ?_
    rw [show (u1.children t1.root).length = (t1.children t1.root).length by
      rw [← List.length_map (f := (·.1)), H1.children, List.length_map]]
    have key : ∀ b : Bool, (b = true → ¬ t1.IsTerm t1.root) →
        Rel (fun (x y : Tree × Except Err Unit) => x.2 = y.2 ∧ OtherSecondary x.1 y.1)
        (if b = true ∧ (t1.children t1.root).length = 1 then do
          let (t2, r) ← t1.removeNode t1.root
          match r with
          | .ok _ => return (t2, .ok ())
          | .error e => return (t2, .error e)
        else return (t1, .ok ()))
        (if b = true ∧ (t1.children t1.root).length = 1 then do
          let (t2, r) ← u1.removeNode t1.root
          match r with
          | .ok _ => return (t2, .ok ())
          | .error e => return (t2, .error e)
        else return (u1, .ok ())) := by
      intro b hb
      by_cases hc : b = true ∧ (t1.children t1.root).length = 1
      · rw [if_pos hc, if_pos hc]
        refine (H1.removeNode (n := t1.root) (hb hc.1)).bind ?_
        rintro ⟨t2, r⟩ ⟨u2, r'⟩ ⟨H2, e⟩
        simp only at e H2
        subst e
        cases r with
        | ok nd => exact .ok ⟨rfl, H2⟩
        | error e => exact .ok ⟨rfl, H2⟩
      · rw [if_neg hc, if_neg hc]
        exact .ok ⟨rfl, H1⟩
    cases nd with
    | term x => exact key false nofun
    | nt x => exact key (decide (x.label = dummy)) fun _ ⟨y, hy⟩ => by rw [hn] at hy; cases hy

theorem into_bare (t : Tree) (c : Nat) : (t.bare.graph.inEdges c).map (fun r => (r.src, r.w)) =
    (t.graph.prim.filter (·.2.1 = c)).map fun r => (r.1, r.2.2) := by
  unfold Graph.inEdges Graph.prim Tree.bare
  rw [List.filter_map, List.map_map]
  rfl

theorem twin (H : OtherSecondary t u) : Twin t.bare u.bare where
  nodes := H.nodes.symm
  free := H.free.symm
  into c := by rw [into_bare, into_bare, H.shade.prim]
  root := H.root.symm
  nTerminals := H.nTerminals.symm
  numDisc := H.numDisc.symm

end OtherSecondary

theorem LoweredTo.bare {q : Nat} {m : Move} (h : LoweredTo q t t' m) : LoweredTo q t.bare t'.bare m := by
  obtain ⟨id, id', h1, h2, h3, h4, h5, h6, h7, h8, h9, h10, h11, h12⟩ := h
  refine ⟨id, id', mem_bare.2 ⟨h1, h2⟩, h2, h3, by rw [bare_dom]; exact h4, h5, by rw [bare_dom]; exact h6,
    by rw [bare_covers]; exact h7, ?_, h9, h10, h11, h12⟩
  unfold Tree.bare
  simp only
  rw [h8, List.filter_cons_of_pos (by exact h2), List.filter_filter, List.filter_filter]
  congr 1
  apply List.filter_congr
  intro r _
  exact Bool.and_comm ..

theorem MovesTo.bare {q : Nat} {l : List Move} (h : MovesTo q t l t') : MovesTo q t.bare l t'.bare := by
  induction h with
  | nil => exact .nil _
  | snoc _ W hm ih => exact ih.snoc W.bare hm.bare

theorem bare_gapless (t : Tree) : t.bare.Gapless = t.Gapless := by
  unfold Gapless
  rw [bare_covers]

theorem bare_neighbors (t : Tree) (n : Nat) : t.bare.graph.primaryNeighbors n = t.graph.primaryNeighbors n := by
  unfold Graph.primaryNeighbors Graph.outEdges Tree.bare
  simp only
  rw [List.filter_filter, List.filter_filter, List.filter_filter]
  congr 1
  apply List.filter_congr
  intro r _
  cases r.w.isPrimary <;> simp

/-- Two runs of `projectivize` on trees that differ in secondary edges. -/
theorem OtherSecondary.projectivize (H : OtherSecondary t u) {pick pick' : Tree → Finset Nat → Option Nat} (hp : IsOrder pick)
    (hp' : IsOrder pick') (W : t.WF) (Wu : u.WF) {log log' : List Move} (h : t.projectivize pick = .ok (t', some log))
    (h' : u.projectivize pick' = .ok (u', some log')) :
    Twin t'.bare u'.bare ∧ ∀ c, log.filter (fun x => x.2.2 = c) = log'.filter (fun x => x.2.2 = c) := by
  have hterm : ∀ n i, t.TermAt n i → (t.sortIndices t.terminals)[i]? = some n := fun n i h =>
    sorted_terminals_get W.sentence h
  have hterm' : ∀ n i, u.TermAt n i → (u.sortIndices u.terminals)[i]? = some n := fun n i h =>
    sorted_terminals_get Wu.sentence h
  unfold Tree.projectivize at h h'
  by_cases hpr : t.isProjective = true
  · simp [hpr, Res.pure_eq] at h
  have hpr' : ¬ u.isProjective = true := by
    rw [show u.isProjective = t.isProjective by unfold isProjective; rw [H.numDisc]]; exact hpr
  simp only [hpr, hpr', Bool.not_false, if_true] at h h'
  rw [H.nodes, H.nTerminals, H.root] at h'
  obtain ⟨⟨t1, l1⟩, h1, h⟩ := Res.bind_eq_ok.1 h
  obtain ⟨⟨t2, l2⟩, h2, h'⟩ := Res.bind_eq_ok.1 h'
  simp only [Res.pure_eq, Res.ok.injEq, Prod.mk.injEq, Option.some.injEq] at h h'
  obtain ⟨rfl, rfl⟩ := h
  obtain ⟨rfl, rfl⟩ := h'
  refine loopM_rel (f := fun (s : (Tree × List Move) × DfsPost) => do
      let (item, d) ← s.2.next s.1.1.graph
      match item with
      | some ap => do
        let s' ← fillGaps pick (t.sortIndices t.terminals) ap (t.nTerminals + 1) s.1
        if s'.1.isProjective then return .inr s' else return .inl (s', d)
      | none => return .inr s.1)
    (g := fun (s : (Tree × List Move) × DfsPost) => do
      let (item, d) ← s.2.next s.1.1.graph
      match item with
      | some ap => do
        let s' ← fillGaps pick' (u.sortIndices u.terminals) ap (t.nTerminals + 1) s.1
        if s'.1.isProjective then return .inr s' else return .inl (s', d)
      | none => return .inr s.1)
    (fun a b => a.2 = b.2 ∧ Stage t a.1.1 a.1.2 a.2 ∧ Stage u b.1.1 b.1.2 b.2 ∧ Twin a.1.1.bare b.1.1.bare ∧
      (∀ c, a.1.2.filter (fun x => x.2.2 = c) = b.1.2.filter (fun x => x.2.2 = c)) ∧
      ∀ x, x ∉ a.2.discovered → a.1.1.graph.primaryNeighbors x = b.1.1.graph.primaryNeighbors x)
    (fun a b => Twin a.1.bare b.1.bare ∧ ∀ c, a.2.filter (fun x => x.2.2 = c) = b.2.filter (fun x => x.2.2 = c))
    ?_ _ ((t, []), DfsPost.new t.root) ((u, []), DfsPost.new t.root) _ _ ⟨rfl, ⟨.nil t, W, PInv.new W.shape, rfl, rfl, fun _ _ => Iff.rfl, fun _ => Iff.rfl⟩,
      ⟨.nil u, Wu, by rw [← H.root]; exact PInv.new Wu.shape, rfl, rfl, fun _ _ => Iff.rfl, fun _ => Iff.rfl⟩, H.twin,
      fun _ => rfl, fun x _ => (H.shade.neighbors x).symm⟩ h1 h2
  rintro ⟨⟨a, la⟩, d⟩ ⟨⟨b, lb⟩, d2⟩ ⟨hd, X, Y, hT, hlog, hout⟩
  simp only at hd X Y hT hlog hout
  subst hd
  have Wa := X.wf
  have Wb := Y.wf
  rcases X.inv.next Wa.graph Wa.shape with ⟨x, d', k1, k2, k3, k4, k5, k6⟩ | ⟨d', k1, k2⟩
  · have k1' : d.next b.graph = .ok (some x, d') := by
      rcases Y.inv.next Wb.graph Wb.shape with ⟨y, d'', j1, _⟩ | ⟨d'', j1, _⟩
      · rw [j1, dfsPost_next_congr hout k1 j1]
      · rw [j1, dfsPost_next_congr hout k1 j1]
    have kb : PInv b d' := by
      rcases Y.inv.next Wb.graph Wb.shape with ⟨y, d'', j1, j2, _⟩ | ⟨d'', j1, _⟩
      · rw [k1'] at j1
        simp only [Res.ok.injEq, Prod.mk.injEq] at j1
        rw [j1.2]; exact j2
      · rw [k1'] at j1; simp at j1
    have X' : Stage t a la d' := ⟨X.moves, Wa, k2, X.len, X.nterm, X.termAt, X.live⟩
    have Y' : Stage u b lb d' := ⟨Y.moves, Wb, kb, Y.len, Y.nterm, Y.termAt, Y.live⟩
    have hx : x ∈ d'.finished := by rw [k5]; simp
    obtain ⟨a', la', g1, g2, g3, g4, la1, hla, ga⟩ := fillGaps_spec hp hterm X' hx
      (fuel := t.nTerminals + 1) (by have := X.nterm; omega)
    obtain ⟨b', lb', f1, f2, f3, f4, lb1, hlb, fb⟩ := fillGaps_spec hp' hterm' Y' hx
      (fuel := t.nTerminals + 1) (by have := Y.nterm; have := H.nTerminals; omega)
    have hlen : a'.graph.nodes.length = b'.graph.nodes.length := by
      rw [g2.len, f2.len, H.nodes]
    obtain ⟨hT', hl'⟩ := segments_agree Wa.bare Wb.bare g2.wf.bare f2.wf.bare hT ga.bare fb.bare
      (by rw [bare_gapless]; exact g3) (by rw [bare_gapless]; exact f3) hlen
      ((fillGaps_free g1).trans (hT.free.trans (fillGaps_free f1).symm))
    have hlog' : ∀ c, la'.filter (fun x => x.2.2 = c) = lb'.filter (fun x => x.2.2 = c) := by
      intro c
      rw [hla, hlb, List.filter_append, List.filter_append, hlog c, hl' c]
    have hpq : b'.isProjective = a'.isProjective := by
      unfold isProjective
      rw [show a'.numDisc = b'.numDisc from hT'.numDisc]
    by_cases hpr' : a'.isProjective = true
    · right
      refine ⟨(a', la'), (b', lb'), ?_, ?_, hT', hlog'⟩
      · simp only [k1, Res.ok_bind, g1, hpr', if_true]; rfl
      · simp only [k1', Res.ok_bind, f1, hpq, hpr', if_true]; rfl
    · left
      refine ⟨((a', la'), d'), ((b', lb'), d'), ?_, ?_, rfl, g2, f2, hT', hlog', ?_⟩
      · simp only [k1, Res.ok_bind, g1, hpr']; rfl
      · simp only [k1', Res.ok_bind, f1, hpq, hpr']; rfl
      · intro y hy
        simp only at hy ⊢
        have hup : ∀ (s : Tree), PInv s d' → ∀ z, s.Dom z x → z ∈ d'.discovered := by
          intro s I z hz
          induction hz using Relation.ReflTransGen.head_induction_on with
          | refl => exact I.fin_sub x hx
          | @head a b hab _ ih => exact I.above b (.inr ih) a hab
        unfold Graph.primaryNeighbors
        rw [(ga.segment).out y (fun h => hy (hup a k2 y h)),
          (fb.segment).out y (fun h => hy (hup b kb y h))]
        exact hout y fun h => hy (dfsPost_next_sub k1 h)
  · right
    have k1' : d.next b.graph = .ok (none, d') := by
      rcases Y.inv.next Wb.graph Wb.shape with ⟨y, d'', j1, _⟩ | ⟨d'', j1, _⟩
      · rw [j1, dfsPost_next_congr hout k1 j1]
      · rw [j1, dfsPost_next_congr hout k1 j1]
    refine ⟨(a, la), (b, lb), ?_, ?_, hT, hlog⟩
    · simp only [k1, Res.ok_bind]; rfl
    · simp only [k1', Res.ok_bind]; rfl

theorem SamePrimary.trans_id {v : Tree} (h : SamePrimary t u id) (h' : SamePrimary u v id) : SamePrimary t v id where
  root := h'.root.trans h.root
  inj _ _ _ _ e := e
  onto n hn := by
    obtain ⟨m, hm, rfl⟩ := h'.onto n hn
    exact h.onto m hm
  node n hn := by
    have hl : u.Live n := by
      obtain ⟨x, hx⟩ := hn
      exact ⟨x, (h.node n ⟨x, hx⟩).trans hx⟩
    exact (h'.node n hl).trans (h.node n hn)
  edge p n w hp hn hw := by
    have hl : ∀ {n}, t.Live n → u.Live n := fun ⟨x, hx⟩ => ⟨x, (h.node _ ⟨x, hx⟩).trans hx⟩
    exact (h.edge p n w hp hn hw).trans (h'.edge p n w (hl hp) (hl hn) hw)

theorem Twin.samePrimary (h : Twin t.bare u.bare) : SamePrimary t u id where
  root := h.root.symm
  inj _ _ _ _ e := e
  onto n hn := by
    obtain ⟨x, hx⟩ := hn
    exact ⟨n, ⟨x, (h.node? n).trans hx⟩, rfl⟩
  node n _ := (h.node? n).symm
  edge p n w _ _ hw := by
    have key : ∀ t : Tree, (∃ e ∈ t.graph.edges, e.src = p ∧ e.tgt = n ∧ e.w = w) ↔ (p, w) ∈ t.bare.into n := by
      intro t
      rw [mem_into]
      constructor
      · rintro ⟨⟨i, a, b, c⟩, he, rfl, rfl, rfl⟩
        exact ⟨i, mem_bare.2 ⟨he, hw⟩⟩
      · rintro ⟨i, hi⟩
        exact ⟨_, (mem_bare.1 hi).1, rfl, rfl, rfl⟩
    have e : t.bare.into n = u.bare.into n := h.into n
    exact (key t).trans (by rw [e]; exact (key u).symm)

theorem SamePrimary.symm_id (h : SamePrimary t u id) : SamePrimary u t id := by
  have hl : ∀ {n}, u.Live n → t.Live n := fun {n} hn => by
    obtain ⟨m, hm, e⟩ := h.onto n hn
    rwa [← show m = n from e]
  exact ⟨h.root.symm, fun _ _ _ _ e => e, fun n ⟨x, hx⟩ => ⟨n, ⟨x, (h.node n ⟨x, hx⟩).trans hx⟩, rfl⟩,
    fun n hn => (h.node n (hl hn)).symm, fun p n w hp hn hw => (h.edge p n w (hl hp) (hl hn) hw).symm⟩

end Tree

namespace Convert

open Lumberjack.Tree

variable {t u : Tree}

/-- Projectivization, with or without a record, on trees that differ in secondary edges. -/
theorem projectivize_other {o o' : Options} (hb : o'.projectivize = o.projectivize) (H : OtherSecondary t u) (F : Fit t) (F' : Fit u)
    {pick pick' : Tree → Finset Nat → Option Nat} (hpick : IsOrder pick) (hpick' : IsOrder pick') :
    ∃ t2 u2, stepProjectivize pick o (.ok t) = .ok (.ok t2) ∧ stepProjectivize pick' o' (.ok u) = .ok (.ok u2) ∧
      Good true t t2 ∧ Good true u u2 ∧ SamePrimary t2 u2 id := by
  obtain ⟨t2, a2, _, c2, _⟩ := stepProjectivize_spec hpick o F
  obtain ⟨u2, a2', _, c2', _⟩ := stepProjectivize_spec hpick' o' F'
  refine ⟨t2, u2, a2, a2', c2, c2', ?_⟩
  unfold stepProjectivize at a2 a2'
  cases h : o.projectivize with
  | false =>
    rw [hb, h] at a2'
    rw [h] at a2
    cases a2
    cases a2'
    exact H.twin.samePrimary
  | true =>
    rw [hb, h, stepIf_true] at a2'
    rw [h, stepIf_true] at a2
    have hgg : ∀ n, u.Gapless n ↔ t.Gapless n := by
      intro n
      rw [← bare_gapless t, ← bare_gapless u]
      unfold Gapless
      simp only [H.twin.covers]
    have hll : ∀ n, u.Live n ↔ t.Live n := fun n => by
      show (∃ _, _) ↔ ∃ _, _
      rw [H.node?]
    by_cases hg : ∀ n, t.Live n → t.Gapless n
    · have hg' : ∀ n, u.Live n → u.Gapless n := fun n hn => (hgg n).2 (hg n ((hll n).1 hn))
      rw [Props.C22_projective_unchanged t F.wf pick hg] at a2
      rw [Props.C22_projective_unchanged u F'.wf pick' hg'] at a2'
      cases a2
      cases a2'
      exact H.twin.samePrimary
    · push Not at hg
      have hg' : ∃ n, u.Live n ∧ ¬ u.Gapless n := by
        obtain ⟨n, h1, h2⟩ := hg
        exact ⟨n, (hll n).2 h1, fun h => h2 ((hgg n).1 h)⟩
      have one : ∀ {t t2 : Tree} {o : Options} {pick : Tree → Finset Nat → Option Nat}, t.WF → IsOrder pick →
          (∃ n, t.Live n ∧ ¬ t.Gapless n) → (do
            let (t', log) ← t.projectivize pick
            match log with
            | some moves =>
              if o.secEdges then
                let t'' ← addMoves moves t'
                return Except.ok t''
              else
                return .ok t'
            | none => return .ok t') = (.ok (.ok t2) : Res (Except Err Tree)) →
          ∃ tp log, t.projectivize pick = .ok (tp, some log) ∧ SamePrimary tp t2 id := by
        intro t t2 o pick W hpick hg a2
        obtain ⟨tp, log, h1, W1, hp1, hg1⟩ := Props.C22_projectivize t W pick hpick hg
        refine ⟨tp, log, h1, ?_⟩
        have M := Props.C23_moves t W pick hpick h1
        obtain ⟨t3, k1, k2, k3, k4⟩ := addMoves_spec log W1 M.ends
        rw [h1, Res.ok_bind] at a2
        simp only at a2
        split at a2
        · rw [k1, Res.ok_bind] at a2
          cases a2
          exact recorded_same k3
        · cases a2
          exact SamePrimary_refl _
      obtain ⟨tp, log, h1, h2⟩ := one F.wf hpick hg a2
      obtain ⟨up, log', h1', h2'⟩ := one F'.wf hpick' hg' a2'
      have T := (H.projectivize hpick hpick' F.wf F'.wf h1 h1').1
      exact (h2.symm_id.trans_id T.samePrimary).trans_id h2'

theorem dummies_other {o : Options} (H : OtherSecondary t u) {t1 u1 : Tree} (h : stepDummies o (.ok t) = .ok (.ok t1))
    (h' : stepDummies o (.ok u) = .ok (.ok u1)) : OtherSecondary t1 u1 := by
  unfold stepDummies at h h'
  cases hd : o.removeDummies with
  | false =>
    rw [hd] at h h'
    cases h
    cases h'
    exact H
  | true =>
    rw [hd, stepIf_true] at h h'
    obtain ⟨⟨a, r⟩, e1, h⟩ := Res.bind_eq_ok.1 h
    obtain ⟨⟨b, r'⟩, e2, h'⟩ := Res.bind_eq_ok.1 h'
    obtain ⟨e, H1⟩ := H.removeDummyNodes _ _ e1 e2
    simp only at e H1
    subst e
    cases r with
    | error e => cases h
    | ok v =>
      cases h
      cases h'
      exact H1

/-- What is written in other formats than NEGRA depends on the secondary edges in no way. -/
theorem other_convert {o : Options} (H : OtherSecondary t u) (S : Suits o t) (S' : Suits o u) (ho : o.out ≠ .negra) (b : Bool)
    {pick pick' : Tree → Finset Nat → Option Nat} (hpick : IsOrder pick) (hpick' : IsOrder pick') (tags : Option PosItem) (c : Nat) :
    convertTree pick' { o with secEdges := b } tags c u = convertTree pick o tags c t := by
  obtain ⟨t1, a1, b1, c1⟩ := stepDummies_spec o S.fit (S.words.imp_right And.left)
  obtain ⟨u1, a1', b1', c1'⟩ := stepDummies_spec o S'.fit (S'.words.imp_right And.left)
  obtain ⟨t2, u2, a2, a2', c2, c2', P⟩ := projectivize_other (o := o) (o' := { o with secEdges := b }) rfl (dummies_other H a1 a1')
    c1.fit c1'.fit hpick hpick'
  rw [convert_off a1 a2, convert_off (o := { o with secEdges := b }) a1' a2']
  exact rest_same (o := o) P.bare (suits_off S (c1.trans c2)) (suits_off S' (c1'.trans c2')) ho hpick hpick' tags c

end Convert
end Lumberjack
