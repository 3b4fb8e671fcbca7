import Verif.Model.Conllx
import Verif.Spec.Decode

/-!
# Specification vocabulary for tagged sentences
-/

namespace Lumberjack
namespace Conllx

/-- The token of a terminal. -/
def tokenOf (x : Terminal) : Token where
  form := x.form
  lem := x.lem
  pos := some x.pos
  features := x.features.map Features.toStr

/-- A label that can be stored in a tag: not empty and without the characters that delimit labels of a
chain, the number, the chain, features and feature values. -/
def TagLabel (l : Str) : Prop := l ≠ [] ∧ ∀ c ∈ ['_', '+', '~', '|', ':'], c ∉ l

end Conllx

namespace Tree

/-- The provisos under which a tree survives as a tagged sentence. -/
structure Taggable (t : Tree) : Prop where
  /-- no node has features -/
  features : ∀ n nd, t.graph.node? n = some nd → nd.features.getD Features.empty = Features.empty
  /-- no terminal has a lemma -/
  lem : ∀ n x, t.graph.node? n = some (.term x) → x.lem = none
  /-- labels of nonterminals have no reserved characters -/
  label : ∀ n x, t.graph.node? n = some (.nt x) → Conllx.TagLabel x.label
  /-- edges have no labels -/
  edges : ∀ r ∈ t.graph.edges, r.w.isPrimary = true → r.w.label = none
  /-- numbers fit into a machine word -/
  size : t.graph.nodes.length < 2 ^ 63

end Tree
end Lumberjack
