import Verif.Spec.Bracket
import Verif.Spec.NegraTrip

/-!
# What an output format holds
-/

namespace Lumberjack
namespace Forest

open Bracketed

/-- Two trees agree in what a bracketed format holds: they have the same shape, the same words and tags (with brackets
replaced) and the same labels of inner nodes; but for the simple format also the same annotations of inner nodes; for the
TueBa format also the same edge labels.  Nothing is said about lemmas and other features. -/
inductive Agree (f : Ptb.Format) : Forest → Forest → Prop
  | nil : Agree f .nil .nil
  | leaf {e e' x y r r'} : escape x.form = escape y.form → escape x.pos = escape y.pos → (f = .tueba → e = e') →
      Agree f r r' → Agree f (.leaf e x r) (.leaf e' y r')
  | node {e e' x y k k' r r'} : x.label = y.label →
      (f ≠ .simple → annotationOf x.features = annotationOf y.features) → (f = .tueba → e = e') →
      Agree f k k' → Agree f r r' → Agree f (.node e x k r) (.node e' y k' r')

end Forest

namespace Negra

/-- The secondary parent of `n` that is reported first is `p`, the edge has the label `l`. -/
def FirstSecondary (t : Tree) (n p : Nat) (l : Option Str) : Prop :=
  ∃ e ∈ t.graph.edges, t.secondaryParent n = some (e.src, e.id) ∧ e.src = p ∧ e.w = .secondary l

/-- Two trees agree, up to the identity `φ` of nodes, in what the NEGRA format holds: the root corresponds to the root,
words to words with the same position, form, tag, lemma and features, other nodes to nodes with the same label and
features, and nodes have the same parent and the same first secondary parent, by edges with the same labels.  Nothing is
said about the label of the root and its secondary parents. -/
structure Agree (t u : Tree) (φ : Nat → Nat) : Prop where
  root : u.root = φ t.root
  inj : ∀ n m, t.Live n → t.Live m → φ n = φ m → n = m
  onto : ∀ n', u.Live n' → ∃ n, t.Live n ∧ φ n = n'
  terms : ∀ n x, t.graph.node? n = some (.term x) → ∃ f, u.graph.node? (φ n) = some (.term { x with features := f }) ∧
    Forest.FeatSame x.features f
  nts : ∀ n x, n ≠ t.root → t.graph.node? n = some (.nt x) →
    ∃ f, u.graph.node? (φ n) = some (.nt { x with features := f }) ∧ Forest.FeatSame x.features f
  primary : ∀ p n l, t.Live p → t.Live n →
    ((∃ e ∈ t.graph.edges, e.src = p ∧ e.tgt = n ∧ e.w = .primary l) ↔
      ∃ e ∈ u.graph.edges, e.src = φ p ∧ e.tgt = φ n ∧ e.w = .primary l)
  second : ∀ n p l, t.Live n → n ≠ t.root → t.Live p → (FirstSecondary t n p l ↔ FirstSecondary u (φ n) (φ p) l)

end Negra
end Lumberjack
