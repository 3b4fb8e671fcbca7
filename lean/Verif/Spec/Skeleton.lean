import Verif.Spec.Conllx

/-!
# What tags carry of a tree
-/

namespace Lumberjack

/-- The words, their parts of speech, and the inner nodes with their labels: edge labels, lemmas and features are
dropped. -/
def Forest.skeleton : Forest → Forest
  | nil => nil
  | leaf _ x r => leaf none { x with lem := none, features := none } r.skeleton
  | node _ x k r => node none { x with features := none } k.skeleton r.skeleton

/-- The greatest number of inner nodes above a word. -/
def Forest.height : Forest → Nat
  | nil => 0
  | leaf _ _ r => r.height
  | node _ _ k r => max (k.height + 1) r.height

/-- No feature other than `key` reads as one called `key` when the features are written down. -/
def Features.Quiet (key : Str) (fs : Features) : Prop :=
  ∀ e ∈ fs.entries, e.1 ≠ key → ∀ piece ∈ splitOn '|' (Features.printOne e), (Features.parseOne piece).1 ≠ key

/-- The provisos under which the skeleton of a tree survives in tags stored in the feature `key`. -/
structure Tree.Storable (t : Tree) (key : Str) : Prop where
  /-- no node has a feature `unary_chain` -/
  free : ∀ n nd, t.graph.node? n = some nd → (nd.features.getD Features.empty).getVal Forest.chainKey = none
  /-- feature sets are ordered maps (see C07) -/
  sorted : ∀ n x, t.graph.node? n = some (.term x) → (x.features.getD Features.empty).Sorted
  /-- no other feature is mistaken for the tag -/
  quiet : ∀ n x, t.graph.node? n = some (.term x) → (x.features.getD Features.empty).Quiet key
  /-- labels of nonterminals have no reserved characters -/
  label : ∀ n x, t.graph.node? n = some (.nt x) → Conllx.TagLabel x.label
  /-- numbers fit into a machine word -/
  height : ∀ f, t.Is f → f.height < 2 ^ 63

end Lumberjack
