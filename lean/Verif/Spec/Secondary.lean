import Verif.Spec.Iso
import Verif.Spec.Negra
import Verif.Spec.Text

/-!
# Trees that differ in their secondary edges
-/

namespace Lumberjack
namespace Tree

/-- `u` is `t` with other node indices `φ` and possibly other secondary edges: the nodes and the edges of the tree
proper are the same. -/
structure SamePrimary (t u : Tree) (φ : Nat → Nat) : Prop where
  root : u.root = φ t.root
  inj : ∀ n m, t.Live n → t.Live m → φ n = φ m → n = m
  onto : ∀ n', u.Live n' → ∃ n, t.Live n ∧ φ n = n'
  node : ∀ n, t.Live n → u.graph.node? (φ n) = t.graph.node? n
  edge : ∀ p n w, t.Live p → t.Live n → w.isPrimary = true →
    ((∃ e ∈ t.graph.edges, e.src = p ∧ e.tgt = n ∧ e.w = w) ↔ ∃ e ∈ u.graph.edges, e.src = φ p ∧ e.tgt = φ n ∧ e.w = w)

/-- `u` is `t` with other secondary edges: the nodes are in the same slots, and the edges of the tree proper were added
in the same order (edge indices may differ). -/
structure OtherSecondary (t u : Tree) : Prop where
  nodes : u.graph.nodes = t.graph.nodes
  free : u.graph.freeNodes = t.graph.freeNodes
  edges : (u.graph.edges.filter (·.w.isPrimary)).map (fun e => (e.src, e.tgt, e.w)) =
    (t.graph.edges.filter (·.w.isPrimary)).map fun e => (e.src, e.tgt, e.w)
  root : u.root = t.root
  nTerminals : u.nTerminals = t.nTerminals
  numDisc : u.numDisc = t.numDisc

end Tree

namespace Negra

/-- A line of a NEGRA file and the line that may replace it: the lines around the sentences are the same, others agree
in the first six columns (form or number, lemma, label, morphology, edge label, parent). -/
def SameColumns (l l' : Str) : Prop :=
  (IsFrame l ∧ l' = l) ∨ (¬ IsFrame l ∧ ∃ ws ws', Text.Words l ws ∧ Text.Words l' ws' ∧ ws'.take 6 = ws.take 6)

/-- The line without what follows the sixth column. -/
def Stripped (l l' : Str) : Prop :=
  (IsFrame l ∧ l' = l) ∨ (¬ IsFrame l ∧ ∃ ws, Text.Words l ws ∧ Text.Words l' (ws.take 6))

end Negra
end Lumberjack
