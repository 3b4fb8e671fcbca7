import Verif.Spec.Tree
import Verif.Model.TreeMod

/-!
# Specification vocabulary for projectivization
-/

namespace Lumberjack
namespace Tree

/-- Node `n` dominates a contiguous block of sentence positions. -/
def Gapless (t : Tree) (n : Nat) : Prop :=
  ∀ i j k, t.Covers n i → t.Covers n j → i ≤ k → k ≤ j → t.Covers n k

/-- One reattachment, logged as `m = (p, w, c)`: node `c`, attached to `p` by an edge with content
`w`, is attached with the same edge content to the node `q` properly below `p` that is not below `c`
and has a gap at a position covered by `c`.  Everything else is unchanged. -/
def LoweredTo (q : Nat) (t t' : Tree) (m : Move) : Prop :=
  ∃ id id', (⟨id, m.1, m.2.2, m.2.1⟩ : EdgeRec) ∈ t.graph.edges ∧ m.2.1.isPrimary = true ∧
    t.IsNt q ∧ t.Dom m.1 q ∧ q ≠ m.1 ∧ ¬ t.Dom m.2.2 q ∧
    (∃ i k j, i < k ∧ k < j ∧ t.Covers q i ∧ t.Covers q j ∧ ¬ t.Covers q k ∧ t.Covers m.2.2 k) ∧
    t'.graph.edges = ⟨id', q, m.2.2, m.2.1⟩ :: t.graph.edges.filter (fun s => s.id ≠ id) ∧
    (∀ n, t'.content n = t.content n) ∧
    (∀ n i, t'.TermAt n i ↔ t.TermAt n i) ∧
    t'.root = t.root ∧ t'.nTerminals = t.nTerminals

/-- One reattachment, logged as `m`, to some node. -/
def Lowered (t t' : Tree) (m : Move) : Prop := ∃ q, LoweredTo q t t' m

/-- A sequence of logged reattachments through well-formed trees. -/
inductive Moves : Tree → List Move → Tree → Prop
  | nil (t : Tree) : Moves t [] t
  | snoc {t t1 t' : Tree} {log : List Move} {m : Move} (h : Moves t log t1) (W : t1.WF)
      (hm : Lowered t1 t' m) : Moves t (log ++ [m]) t'

/-- A sequence of logged reattachments to `q` through well-formed trees. -/
inductive MovesTo (q : Nat) : Tree → List Move → Tree → Prop
  | nil (t : Tree) : MovesTo q t [] t
  | snoc {t t1 t' : Tree} {log : List Move} {m : Move} (h : MovesTo q t log t1) (W : t1.WF)
      (hm : LoweredTo q t1 t' m) : MovesTo q t (log ++ [m]) t'

/-- An iteration order of hash sets: the first element of a non-empty set is some element of it.
It may depend on the history, represented by the current tree. -/
def IsOrder (pick : Tree → Finset Nat → Option Nat) : Prop :=
  ∀ t s, (s.Nonempty → ∃ i ∈ s, pick t s = some i) ∧ (s = ∅ → pick t s = none)

/-- Two trees with the same nodes in the same slots and the same edges, which differ at most in the
indices of the edges and in the order in which the edges out of a node were added. -/
structure Twin (t u : Tree) : Prop where
  nodes : t.graph.nodes = u.graph.nodes
  free : t.graph.freeNodes = u.graph.freeNodes
  into : ∀ c, (t.graph.inEdges c).map (fun r => (r.src, r.w)) = (u.graph.inEdges c).map (fun r => (r.src, r.w))
  root : t.root = u.root
  nTerminals : t.nTerminals = u.nTerminals
  numDisc : t.numDisc = u.numDisc

end Tree
end Lumberjack
