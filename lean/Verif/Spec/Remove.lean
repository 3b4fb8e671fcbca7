import Verif.Spec.Tree

/-!
# Specification vocabulary for removing nodes
-/

namespace Lumberjack
namespace Tree

/-- `t'` is the well-formed tree obtained from `t` by taking out the nodes in `R`: the other nodes
are unchanged (contents, spans), dominance among them is the same, edges between them are kept, and
the edges added are unlabelled and lead from a node to one it dominated. -/
structure Removed (t t' : Tree) (R : Nat → Prop) : Prop where
  wf : t'.WF
  nTerm : t'.nTerminals = t.nTerminals
  gone : ∀ n, R n → ¬ t'.Live n
  node : ∀ n, ¬ R n → t'.graph.node? n = t.graph.node? n
  dom : ∀ a b, ¬ R a → ¬ R b → (t'.Dom a b ↔ t.Dom a b)
  edges : ∀ r ∈ t.graph.edges, ¬ R r.src → ¬ R r.tgt → r ∈ t'.graph.edges
  added : ∀ r ∈ t'.graph.edges, r ∈ t.graph.edges ∨ (t.Dom r.src r.tgt ∧ r.w = .primary none)

/-- `n` is a nonterminal labelled `DUMMY`. -/
def IsDummy (t : Tree) (n : Nat) : Prop := ∃ x, t.graph.node? n = some (.nt x) ∧ x.label = "DUMMY".toList

/-- `t'` has exactly the secondary edges of `t` between nodes that are still there. -/
def SecondaryKept (t t' : Tree) : Prop := ∀ r : EdgeRec, r.w.isPrimary = false →
  (r ∈ t'.graph.edges ↔ r ∈ t.graph.edges ∧ t'.Live r.src ∧ t'.Live r.tgt)

/-- A predicate on nodes that only looks at the node, not at its span or its surroundings. -/
def NodeLocal (f : Tree → Nat → Bool) : Prop := ∀ t t' n, t.content n = t'.content n → f t n = f t' n

end Tree
end Lumberjack
