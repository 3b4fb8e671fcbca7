import Verif.Spec.Remove
import Verif.Spec.Forest

/-!
# Terminals moved to one node
-/

namespace Lumberjack
namespace Tree

/-- `t'` is `t` with exactly the terminals in `M` attached to the node `a`.

* the sentence is the same: every terminal keeps its form, part of speech, features and position;
* a nonterminal survives iff it is `a`, is above `a` or dominates a terminal outside of `M`, and
  then it keeps its label and features;
* the nodes in `M` hang below `a` by an unlabelled edge, all other surviving nodes where they
  were, with the label they had;
* the secondary edges between surviving nodes are kept. -/
structure Gathered (t : Tree) (a : Nat) (M : Nat → Prop) (t' : Tree) : Prop where
  wf : t'.WF
  root : t'.root = t.root
  nterm : t'.nTerminals = t.nTerminals
  len : t'.graph.nodes.length = t.graph.nodes.length
  term : ∀ n x, t.graph.node? n = some (.term x) → t'.graph.node? n = some (.term x)
  content : ∀ n, t'.Live n → t'.content n = t.content n
  live : ∀ n, t'.Live n ↔
    t.Live n ∧ (t.IsTerm n ∨ t.Dom n a ∨ ∃ m, t.IsTerm m ∧ ¬ M m ∧ t.Dom n m)
  child : ∀ p c, t'.IsChild p c ↔ (t.IsChild p c ∧ t'.Live c ∧ ¬ M c) ∨ (p = a ∧ M c)
  moved : ∀ c, M c → t'.inLabel c = none
  label : ∀ c, t'.Live c → ¬ M c → t'.inLabel c = t.inLabel c
  secondary : SecondaryKept t t'

/-- Well-formedness up to spans that contain too much: a nonterminal's span contains all positions
it covers, and a position in it that it does not cover is in `D`. -/
structure Loose (D : Nat → Prop) (t : Tree) : Prop where
  graph : t.graph.OK
  shape : t.Shape
  sentence : t.Sentence
  count : t.CountOK
  spans : ∀ n x, t.graph.node? n = some (.nt x) → x.span.Valid ∧ (∀ i, t.Covers n i → i ∈ x.span.indices) ∧
    ∀ i, i ∈ x.span.indices → ¬ D i → t.Covers n i

/-- `Gathered` while the spans are not yet put right: a node may still count the positions of terminals in `M` among
its own. -/
structure Gath (t : Tree) (a : Nat) (M : Nat → Prop) (t' : Tree) : Prop where
  loose : t'.Loose (fun i => ∃ m, M m ∧ t.TermAt m i)
  root : t'.root = t.root
  nterm : t'.nTerminals = t.nTerminals
  len : t'.graph.nodes.length = t.graph.nodes.length
  term : ∀ n x, t.graph.node? n = some (.term x) → t'.graph.node? n = some (.term x)
  content : ∀ n, t'.Live n → t'.content n = t.content n
  live : ∀ n, t'.Live n ↔
    t.Live n ∧ (t.IsTerm n ∨ t.Dom n a ∨ ∃ m, t.IsTerm m ∧ ¬ M m ∧ t.Dom n m)
  child : ∀ p c, t'.IsChild p c ↔ (t.IsChild p c ∧ t'.Live c ∧ ¬ M c) ∨ (p = a ∧ M c)
  moved : ∀ c, M c → t'.inLabel c = none
  label : ∀ c, t'.Live c → ¬ M c → t'.inLabel c = t.inLabel c
  secondary : SecondaryKept t t'

/-- A predicate on terminals that only looks at the terminal, not at its surroundings. -/
def TermLocal (f : Tree → Nat → Bool) : Prop := ∀ (t t' : Tree) n x,
  t.graph.node? n = some (.term x) → t'.graph.node? n = some (.term x) → f t n = f t' n

/-- A predicate on terminals that only looks at the terminal and at the node it is attached to (apart from its span). -/
def ParentLocal (f : Tree → Nat → Bool) : Prop := ∀ (t t' : Tree) n x p e e',
  t.graph.node? n = some (.term x) → t'.graph.node? n = some (.term x) → t.parent n = some (p, e) →
    t'.parent n = some (p, e') → t'.content p = t.content p → f t n = f t' n

end Tree
end Lumberjack
