import Verif.Proofs.Unary

/-!
# Changing nodes in place
-/

namespace Lumberjack
namespace Tree

open Relation

/-- `t'` is `t` with every node changed by `f`. -/
structure NodeEdit (t t' : Tree) (f : Nat → Node → Node) : Prop where
  graph : t'.graph = { t.graph with nodes := t'.graph.nodes }
  root : t'.root = t.root
  nTerm : t'.nTerminals = t.nTerminals
  disc : t'.numDisc = t.numDisc
  len : t'.graph.nodes.length = t.graph.nodes.length
  node : ∀ n, t'.graph.node? n = (t.graph.node? n).map (f n)

/-- `f` does not exchange terminals and nonterminals. -/
def KeepsKind (f : Nat → Node → Node) : Prop := ∀ n nd, (f n nd).isTerminal = nd.isTerminal

namespace NodeEdit

variable {t t' t'' : Tree} {f g : Nat → Node → Node}

theorem refl (t : Tree) : NodeEdit t t (fun _ nd => nd) where
  graph := rfl
  root := rfl
  nTerm := rfl
  disc := rfl
  len := rfl
  node n := by simp

theorem trans (h : NodeEdit t t' f) (h' : NodeEdit t' t'' g) :
    NodeEdit t t'' (fun n nd => g n (f n nd)) where
  graph := by rw [h'.graph, h.graph]
  root := h'.root.trans h.root
  nTerm := h'.nTerm.trans h.nTerm
  disc := h'.disc.trans h.disc
  len := h'.len.trans h.len
  node n := by rw [h'.node, h.node, Option.map_map]; rfl

theorem congr (h : NodeEdit t t' f) (hfg : ∀ n nd, t.graph.node? n = some nd → f n nd = g n nd) :
    NodeEdit t t' g where
  graph := h.graph
  root := h.root
  nTerm := h.nTerm
  disc := h.disc
  len := h.len
  node n := by
    rw [h.node]
    cases hn : t.graph.node? n with
    | none => rfl
    | some nd => simp [hfg n nd hn]

theorem set {n : Nat} {nd : Node} (hn : t.graph.node? n = some nd) (nd' : Node) :
    NodeEdit t (t.setNode n nd') (fun k x => if k = n then nd' else x) where
  graph := rfl
  root := rfl
  nTerm := rfl
  disc := rfl
  len := by simp [setNode]
  node m := by
    show (t.graph.setNode n nd').node? m = _
    rw [Graph.node?_setNode ⟨_, hn⟩]
    split
    · rename_i e; subst e; rw [hn]; simp
    · rename_i e; simp

theorem edges (h : NodeEdit t t' f) : t'.graph.edges = t.graph.edges := by rw [h.graph]

theorem isChild (h : NodeEdit t t' f) : t'.IsChild = t.IsChild :=
  isChild_congr' (primEdges_congr h.edges)

theorem dom (h : NodeEdit t t' f) : t'.Dom = t.Dom := dom_congr h.isChild

theorem live (h : NodeEdit t t' f) (n : Nat) : t'.Live n ↔ t.Live n := by
  unfold Live Graph.Live
  rw [h.node]
  cases t.graph.node? n <;> simp

theorem isTerm (h : NodeEdit t t' f) (hf : KeepsKind f) (n : Nat) : t'.IsTerm n ↔ t.IsTerm n := by
  unfold IsTerm
  rw [h.node]
  cases hn : t.graph.node? n with
  | none => simp
  | some nd =>
    have h1 := hf n nd
    simp only [Option.map_some]
    generalize f n nd = nd' at h1
    cases nd <;> cases nd' <;> simp_all [Node.isTerminal]

theorem isNt (h : NodeEdit t t' f) (hf : KeepsKind f) (n : Nat) : t'.IsNt n ↔ t.IsNt n := by
  unfold IsNt
  rw [h.node]
  cases hn : t.graph.node? n with
  | none => simp
  | some nd =>
    have h1 := hf n nd
    simp only [Option.map_some]
    generalize f n nd = nd' at h1
    cases nd <;> cases nd' <;> simp_all [Node.isTerminal]

theorem shape (h : NodeEdit t t' f) (hf : KeepsKind f) (S : t.Shape) : t'.Shape :=
  S.congr (primEdges_congr h.edges) h.root (h.isTerm hf) (h.isNt hf)

theorem ok (h : NodeEdit t t' f) (G : t.graph.OK) : t'.graph.OK := by
  have hl : ∀ n, t'.graph.Live n ↔ t.graph.Live n := h.live
  have hn : ∀ n, t.graph.node? n = none → t'.graph.node? n = none := fun n hn => by
    rw [h.node, hn]; rfl
  rw [h.graph] at hl hn ⊢
  refine ⟨G.ids_nodup, G.ids_lt, G.freeEdges_nodup, G.freeEdges, G.freeNodes_nodup, ?_, ?_⟩
  · intro i hi
    obtain ⟨h1, h2⟩ := G.freeNodes i hi
    exact ⟨by simp only [h.len]; exact h1, hn i h2⟩
  · intro r hr
    obtain ⟨h1, h2⟩ := G.ends r hr
    exact ⟨(hl _).2 h1, (hl _).2 h2⟩

/-- Changes that leave all spans alone keep a tree well formed. -/
theorem core (h : NodeEdit t t' f) (hf : KeepsKind f) (hs : ∀ n nd, (f n nd).span = nd.span)
    (C : t.Core) : t'.Core := by
  have hA : ∀ n i, t'.TermAt n i ↔ t.TermAt n i := by
    intro n i
    unfold TermAt
    rw [h.node]
    cases hn : t.graph.node? n with
    | none => simp
    | some nd =>
      have h1 := hf n nd
      have h2 := hs n nd
      simp only [Option.map_some]
      generalize f n nd = nd' at h1 h2
      cases nd <;> cases nd' <;> simp_all [Node.isTerminal, Node.span]
  refine ⟨h.ok C.graph, h.shape hf C.shape, ⟨?_, ?_, ?_⟩, ?_⟩
  · intro n hn
    obtain ⟨i, h1, h2⟩ := C.sentence.pos n ((h.isTerm hf n).1 hn)
    exact ⟨i, by rw [h.nTerm]; exact h1, (hA n i).2 h2⟩
  · intro i hi
    rw [h.nTerm] at hi
    obtain ⟨n, hn⟩ := C.sentence.occupied i hi
    exact ⟨n, (hA n i).2 hn⟩
  · intro n m i h1 h2
    exact C.sentence.inj n m i ((hA n i).1 h1) ((hA m i).1 h2)
  · intro n x hx
    rw [h.node] at hx
    cases hn : t.graph.node? n with
    | none => rw [hn] at hx; simp at hx
    | some nd =>
      rw [hn] at hx
      simp only [Option.map_some, Option.some.injEq] at hx
      have h1 := hf n nd
      have h2 := hs n nd
      rw [hx] at h1 h2
      cases nd with
      | term y => simp [Node.isTerminal] at h1
      | nt y =>
        obtain ⟨q1, q2⟩ := C.spans n y hn
        rw [show x.span = y.span from h2]
        refine ⟨q1, fun i => ?_⟩
        rw [q2]
        unfold Covers
        simp only [h.dom, hA]

theorem countOK (h : NodeEdit t t' f) (hf : KeepsKind f) (hs : ∀ n nd, (f n nd).span = nd.span)
    (C : t.CountOK) : t'.CountOK := by
  rw [countOK_iff] at C ⊢
  rw [h.disc, C]
  congr 1
  ext n
  rw [mem_discSet, mem_discSet]
  unfold Disc
  rw [h.node]
  cases hn : t.graph.node? n with
  | none => simp
  | some nd =>
    have h1 := hf n nd
    have h2 := hs n nd
    simp only [Option.map_some]
    generalize f n nd = nd' at h1 h2
    cases nd <;> cases nd' <;> simp_all [Node.isTerminal, Node.span]

theorem wf (h : NodeEdit t t' f) (hf : KeepsKind f) (hs : ∀ n nd, (f n nd).span = nd.span)
    (W : t.WF) : t'.WF := (h.core hf hs W.core).wf (h.countOK hf hs W.count)

end NodeEdit

/-- A loop changing each of some distinct nodes once. -/
theorem forM'_nodes {t : Tree} {step : Tree → Nat → Res Tree} {l : List Nat} (hnd : l.Nodup)
    (u : Nat → Node → Node)
    (h : ∀ t1 x nd, x ∈ l → t.graph.node? x = some nd → t1.graph.node? x = some nd →
      ∃ t2, step t1 x = .ok t2 ∧ NodeEdit t1 t2 (fun k y => if k = x then u x y else y))
    (hl : ∀ x ∈ l, t.Live x) :
    ∃ t', forM' step l t = .ok t' ∧ NodeEdit t t' (fun k y => if k ∈ l then u k y else y) := by
  have key : ∀ (todo : List Nat) (t1 : Tree), todo.Nodup → (∀ x ∈ todo, x ∈ l) →
      (∀ x ∈ todo, t1.graph.node? x = t.graph.node? x) →
      ∃ t', forM' step todo t1 = .ok t' ∧ NodeEdit t1 t' (fun k y => if k ∈ todo then u k y else y) := by
    intro todo
    induction todo with
    | nil => intro t1 _ _ _; exact ⟨t1, rfl, by simpa using NodeEdit.refl t1⟩
    | cons x xs ih =>
      intro t1 hn hsub hsame
      rw [List.nodup_cons] at hn
      obtain ⟨nd, hx⟩ := hl x (hsub x (by simp))
      have hx1 : t1.graph.node? x = some nd := by rw [hsame x (by simp)]; exact hx
      obtain ⟨t2, h1, h2⟩ := h t1 x nd (hsub x (by simp)) hx hx1
      obtain ⟨t3, h3, h4⟩ := ih t2 hn.2 (fun y hy => hsub y (by simp [hy])) (fun y hy => by
        have hne : y ≠ x := by rintro rfl; exact hn.1 hy
        rw [h2.node, ← hsame y (by simp [hy])]
        simp [hne])
      refine ⟨t3, by rw [forM'_cons, h1]; exact h3, (h2.trans h4).congr ?_⟩
      intro n nd _
      by_cases e : n = x
      · subst e; simp [hn.1]
      · simp [e]
  exact key l t hnd (fun _ h => h) (fun _ _ => rfl)

end Tree
end Lumberjack
