import Verif.Model.Tree
import Verif.Spec.Span
import Mathlib.Logic.Relation

/-!
# Specification vocabulary for trees

The relational reading of a tree: parenthood, dominance, sentence positions, covered positions, and
well-formedness.  None of it uses the traversal functions of the model.
-/

namespace Lumberjack

namespace Graph

/-- `p` is the source of a primary edge to `c`. -/
def IsChild (g : Graph) (p c : Nat) : Prop :=
  ∃ r ∈ g.edges, r.src = p ∧ r.tgt = c ∧ r.w.isPrimary = true

/-- `n` is the index of a node in the graph. -/
def Live (g : Graph) (n : Nat) : Prop := ∃ nd, g.node? n = some nd

/-- Internal consistency of the stable graph: edge indices are unique and allocated, freed slots are
really free, endpoints of edges exist. -/
structure OK (g : Graph) : Prop where
  ids_nodup : (g.edges.map (·.id)).Nodup
  ids_lt : ∀ r ∈ g.edges, r.id < g.edgeSlots
  freeEdges_nodup : g.freeEdges.Nodup
  freeEdges : ∀ i ∈ g.freeEdges, i < g.edgeSlots ∧ ∀ r ∈ g.edges, r.id ≠ i
  freeNodes_nodup : g.freeNodes.Nodup
  freeNodes : ∀ i ∈ g.freeNodes, i < g.nodes.length ∧ g.node? i = none
  ends : ∀ r ∈ g.edges, g.Live r.src ∧ g.Live r.tgt

end Graph

namespace Tree

/-- `p` is the parent of `c`: there is a primary edge from `p` to `c`. -/
def IsChild (t : Tree) (p c : Nat) : Prop := t.graph.IsChild p c

/-- `a` dominates `b`: there is a (possibly empty) path of primary edges from `a` to `b`. -/
def Dom (t : Tree) : Nat → Nat → Prop := Relation.ReflTransGen t.IsChild

/-- `n` is the index of a node of the tree. -/
def Live (t : Tree) (n : Nat) : Prop := t.graph.Live n

/-- `n` is the index of a terminal. -/
def IsTerm (t : Tree) (n : Nat) : Prop := ∃ x, t.graph.node? n = some (.term x)

/-- `n` is the index of a nonterminal. -/
def IsNt (t : Tree) (n : Nat) : Prop := ∃ x, t.graph.node? n = some (.nt x)

/-- `n` is a terminal at sentence position `i`. -/
def TermAt (t : Tree) (n i : Nat) : Prop :=
  ∃ x, t.graph.node? n = some (.term x) ∧ x.span = Span.ofIdx i

/-- Node `n` dominates the terminal at position `i`. -/
def Covers (t : Tree) (n i : Nat) : Prop := ∃ m, t.Dom n m ∧ t.TermAt m i

/-- The node at `n` apart from its span. -/
def content (t : Tree) (n : Nat) : Option Node :=
  (t.graph.node? n).map (Node.replaceSpan (Span.ofIdx 0))

/-- The first position of the span of node `n`. -/
def startOf (t : Tree) (n : Nat) : Nat := match t.graph.node? n with
  | some nd => nd.span.start
  | none => 0

/-- The label of the (first) edge by which `n` is attached to its parent. -/
def edgeLabel (t : Tree) (n : Nat) : Option Edge :=
  (t.graph.edges.find? (fun r => decide (r.tgt = n) && r.w.isPrimary)).map (·.w)

/-- The primary edges form a tree over all nodes with terminals as its leaves. -/
structure Shape (t : Tree) : Prop where
  root_live : t.Live t.root
  root_top : ∀ p, ¬ t.IsChild p t.root
  unique : ∀ r₁ ∈ t.graph.edges, ∀ r₂ ∈ t.graph.edges, r₁.tgt = r₂.tgt →
    r₁.w.isPrimary = true → r₂.w.isPrimary = true → r₁ = r₂
  reach : ∀ n, t.Live n → t.Dom t.root n
  term_leaf : ∀ n c, t.IsTerm n → ¬ t.IsChild n c
  nt_child : ∀ n, t.IsNt n → ∃ c, t.IsChild n c

/-- The terminals occupy the positions `0 .. nTerminals - 1`, one each. -/
structure Sentence (t : Tree) : Prop where
  pos : ∀ n, t.IsTerm n → ∃ i, i < t.nTerminals ∧ t.TermAt n i
  occupied : ∀ i, i < t.nTerminals → ∃ n, t.TermAt n i
  inj : ∀ n m i, t.TermAt n i → t.TermAt m i → n = m

/-- Every nonterminal's span is well formed and contains exactly the positions the node covers. -/
def SpansOK (t : Tree) : Prop :=
  ∀ n x, t.graph.node? n = some (.nt x) →
    x.span.Valid ∧ ∀ i, x.span.contains i = true ↔ t.Covers n i

/-- The node at `n` is a nonterminal whose span has a gap. -/
def Disc (t : Tree) (n : Nat) : Prop := ∃ x, t.graph.node? n = some (.nt x) ∧ x.span.skips.isSome = true

instance (t : Tree) (n : Nat) : Decidable (t.Disc n) :=
  match h : t.graph.node? n with
  | some (.nt x) => if hx : x.span.skips.isSome = true then .isTrue ⟨x, h, hx⟩
    else .isFalse (fun ⟨y, hy, hs⟩ => by rw [h] at hy; simp at hy; exact hx (hy ▸ hs))
  | some (.term x) => .isFalse (fun ⟨y, hy, _⟩ => by rw [h] at hy; simp at hy)
  | none => .isFalse (fun ⟨y, hy, _⟩ => by rw [h] at hy; simp at hy)

/-- The counter of discontinuous nodes is right. -/
def CountOK (t : Tree) : Prop :=
  t.numDisc = ((Finset.range t.graph.nodes.length).filter t.Disc).card

/-- A well-formed tree. -/
structure WF (t : Tree) : Prop where
  graph : t.graph.OK
  shape : t.Shape
  sentence : t.Sentence
  spans : t.SpansOK
  count : t.CountOK

end Tree
end Lumberjack
