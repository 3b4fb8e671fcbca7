import Verif.Spec.Tree

/-!
# The ordered labelled tree a `Tree` stands for

A `Tree` of the crate is a graph; node indices and the order of edges are not part of its meaning.
`Forest` is the plain inductive datatype of ordered labelled forests, `Tree.Is t f` says that `f` is
the one-tree forest that `t` stands for.
-/

namespace Lumberjack

/-- An ordered forest: each tree comes with the label of the edge it is attached by. -/
inductive Forest where
  | nil
  | leaf (edge : Option Str) (x : Terminal) (rest : Forest)
  | node (edge : Option Str) (x : NonTerminal) (kids rest : Forest)
deriving DecidableEq

namespace Forest

/-- Two optional feature sets agree; absent features are the same as none. -/
def FeatSame (f g : Option Features) : Prop := f.getD Features.empty = g.getD Features.empty

/-- Two forests are the same up to word forms: same shape, edge labels, labels, features, spans,
part-of-speech tags and lemmas. -/
def Same : Forest → Forest → Prop
  | nil, nil => True
  | leaf e x r, leaf e' x' r' =>
    e = e' ∧ x.pos = x'.pos ∧ x.span = x'.span ∧ x.lem = x'.lem ∧ FeatSame x.features x'.features ∧
      Same r r'
  | node e x k r, node e' x' k' r' =>
    e = e' ∧ x.label = x'.label ∧ x.span = x'.span ∧ FeatSame x.features x'.features ∧ Same k k' ∧
      Same r r'
  | _, _ => False

/-- The terminals from left to right. -/
def leaves : Forest → List Terminal
  | nil => []
  | leaf _ x r => x :: r.leaves
  | node _ _ k r => k.leaves ++ r.leaves

/-- Number of trees in the forest. -/
def width : Forest → Nat
  | nil => 0
  | leaf _ _ r => r.width + 1
  | node _ _ _ r => r.width + 1

/-- One forest after the other. -/
def append : Forest → Forest → Forest
  | nil, g => g
  | leaf e x r, g => leaf e x (r.append g)
  | node e x k r, g => node e x k (r.append g)

end Forest

namespace Tree

/-- `ks` are the children of `n` from left to right (by first position). -/
def Kids (t : Tree) (n : Nat) (ks : List Nat) : Prop :=
  (∀ c, c ∈ ks ↔ t.IsChild n c) ∧ ks.Pairwise (fun a b => t.startOf a < t.startOf b)

/-- The label of the edge by which `n` is attached to its parent. -/
def inLabel (t : Tree) (n : Nat) : Option Str := (t.edgeLabel n).bind Edge.label

/-- The nodes `ids` and what is below them are the forest `f`. -/
def Rep (t : Tree) : List Nat → Forest → Prop
  | ids, .nil => ids = []
  | ids, .leaf e x r => ∃ n ns, ids = n :: ns ∧ t.graph.node? n = some (.term x) ∧
      t.inLabel n = e ∧ t.Rep ns r
  | ids, .node e x k r => ∃ n ns ks, ids = n :: ns ∧ t.graph.node? n = some (.nt x) ∧
      t.inLabel n = e ∧ t.Kids n ks ∧ t.Rep ks k ∧ t.Rep ns r

/-- The tree stands for `f`. -/
def Is (t : Tree) (f : Forest) : Prop := t.Rep [t.root] f

end Tree
end Lumberjack
