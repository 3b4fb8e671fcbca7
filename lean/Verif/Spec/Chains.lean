import Verif.Spec.Forest
import Verif.Spec.Features
import Verif.Model.TreeMod

/-!
# Specification vocabulary for unary chains
-/

namespace Lumberjack

namespace Forest

/-- The name of the feature. -/
def chainKey : Str := "unary_chain".toList

/-- Append `label` to the list of labels stored in the `unary_chain` feature; a missing feature (or
one without value) is an empty list. -/
def addChain (delim label : Str) (fs : Option Features) : Option Features :=
  some ((fs.getD Features.empty).insert chainKey
    (some (match (fs.getD Features.empty).getVal chainKey with
      | some (some chain) => chain ++ delim ++ label
      | _ => label))).1

/-- What collapsing unary chains means: bottom-up, a nonterminal with a single child is replaced by
this child, which loses the label of its edge and remembers the label of the nonterminal. -/
def collapse (delim : Str) : Forest → Forest
  | nil => nil
  | leaf e x r => leaf e x (r.collapse delim)
  | node e x k r =>
    match k.collapse delim with
    | leaf _ y nil =>
      leaf none { y with features := addChain delim x.label y.features } (r.collapse delim)
    | node _ y k' nil =>
      node none { y with features := addChain delim x.label y.features } k' (r.collapse delim)
    | k' => node e x k' (r.collapse delim)

/-- A tower of nonterminals with the given labels, innermost first, above a forest. -/
def wrap (s : Span) : List Str → Forest → Forest
  | [], g => g
  | l :: ls, g => wrap s ls (node none (NonTerminal.new l s) g nil)

/-- A tower of the given nonterminals, innermost first, each with the label of the edge above it. -/
def tower : List (Option Str × NonTerminal) → Forest → Forest
  | [], g => g
  | (e, x) :: us, g => tower us (node e x g nil)

/-- Features without `unary_chain`. -/
def unchain (fs : Option Features) : Option Features := fs.map (fun f => (f.remove chainKey).1)

/-- The labels in the `unary_chain` feature. -/
def chainOf (delim : Str) (fs : Option Features) : List Str :=
  match (fs.getD Features.empty).getVal chainKey with
  | some (some chain) => Tree.splitStr delim chain
  | _ => []

/-- What restoring unary chains means: the feature is removed from every node and a tower with the
labels listed is built above the node. -/
def restore (delim : Str) : Forest → Forest
  | nil => nil
  | leaf e x r =>
    (wrap x.span (chainOf delim x.features) (leaf e { x with features := unchain x.features } nil)).append
      (r.restore delim)
  | node e x k r =>
    (wrap x.span (chainOf delim x.features)
      (node e { x with features := unchain x.features } (k.restore delim) nil)).append (r.restore delim)

/-- Missing features and an empty set of features are the same. -/
def norm : Forest → Forest
  | nil => nil
  | leaf e x r => leaf e { x with features := some (x.features.getD Features.empty) } r.norm
  | node e x k r => node e { x with features := some (x.features.getD Features.empty) } k.norm r.norm

/-- No nonterminal has exactly one child. -/
def NoUnary : Forest → Prop
  | nil => True
  | leaf _ _ r => r.NoUnary
  | node _ _ k r => k.width ≠ 1 ∧ k.NoUnary ∧ r.NoUnary

end Forest

namespace Tree

/-- `c` is the only child of `n`. -/
def OnlyChild (t : Tree) (n c : Nat) : Prop := t.IsChild n c ∧ ∀ c', t.IsChild n c' → c' = c

/-- The provisos under which collapsing loses nothing. -/
structure Collapsible (t : Tree) (delim : Str) : Prop where
  /-- the delimiter is not empty -/
  delim_ne : delim ≠ []
  /-- feature sets are ordered maps (see C07) ... -/
  sorted : ∀ n nd, t.graph.node? n = some nd → (nd.features.getD Features.empty).Sorted
  /-- ... and no node has a feature `unary_chain` -/
  free : ∀ n nd, t.graph.node? n = some nd → (nd.features.getD Features.empty).getVal Forest.chainKey = none
  /-- the label of a unary node has no character of the delimiter -/
  label : ∀ n c x, t.OnlyChild n c → t.graph.node? n = some (.nt x) → ∀ ch ∈ delim, ch ∉ x.label
  /-- a unary node has no features -/
  features : ∀ n c x, t.OnlyChild n c → t.graph.node? n = some (.nt x) →
    x.features.getD Features.empty = Features.empty
  /-- the edges above and below a unary node have no label -/
  edges : ∀ n c, t.OnlyChild n c → t.inLabel n = none ∧ t.inLabel c = none

end Tree
end Lumberjack
