import Verif.Spec.Tree

/-!
# Specification vocabulary for annotations of terminals
-/

namespace Lumberjack
namespace Tree

/-- `t'` is `t` with the terminal at each index `n` changed by `g n`; everything else (edges, root,
nonterminals, counters) is the same. -/
structure TermEdit (t t' : Tree) (g : Nat → Terminal → Terminal) : Prop where
  graph : t'.graph = { t.graph with nodes := t'.graph.nodes }
  root : t'.root = t.root
  nTerm : t'.nTerminals = t.nTerminals
  disc : t'.numDisc = t.numDisc
  len : t'.graph.nodes.length = t.graph.nodes.length
  none : ∀ n, t.graph.node? n = none → t'.graph.node? n = none
  nt : ∀ n x, t.graph.node? n = some (.nt x) → t'.graph.node? n = some (.nt x)
  term : ∀ n x, t.graph.node? n = some (.term x) → t'.graph.node? n = some (.term (g n x))

/-- The trees differ at most in the features of terminals. -/
def SameButTermFeatures (t t' : Tree) : Prop :=
  ∃ fs : Nat → Option Features, TermEdit t t' (fun n x => { x with features := fs n })

/-- A predicate on nodes whose answer does not depend on the features of terminals (such as any
test of the label of a nonterminal). -/
def IgnoresTermFeatures (f : Tree → Nat → Bool) : Prop :=
  ∀ t t', SameButTermFeatures t t' → ∀ n, f t' n = f t n

/-- `a` is the closest proper ancestor of `n` satisfying `f`: every other such ancestor dominates
it. -/
def Closest (t : Tree) (f : Tree → Nat → Bool) (n a : Nat) : Prop :=
  (a ≠ n ∧ t.Dom a n ∧ f t a = true) ∧ ∀ b, b ≠ n → t.Dom b n → f t b = true → t.Dom b a

/-- A terminal with feature `name` set to `v` (a value as `some v`); other features are kept, as
stated for `insert` by C07. -/
def withFeature (name v : Str) (x : Terminal) : Terminal :=
  { x with features := some ((x.features.getD Features.empty).insert name (some v)).1 }

/-- The nodes above `n`: its parent, that node's parent, and so on up to the root. -/
def PathUp (t : Tree) (n : Nat) (l : List Nat) : Prop :=
  (n :: l).IsChain (fun a b => t.IsChild b a) ∧ (n :: l).getLast? = some t.root

/-- A closure (with state `σ`) that leaves the edges of the tree alone. -/
def KeepsEdges {σ : Type} (f : σ → Tree → Nat → Nat → Res (σ × Tree × Bool)) : Prop :=
  ∀ s t p n s' t' b, f s t p n = .ok (s', t', b) → t'.graph.edges = t.graph.edges

/-- Calling a closure with the nodes of a list and a terminal, until it returns `true`. -/
def visitPath {σ : Type} (f : σ → Tree → Nat → Nat → Res (σ × Tree × Bool)) (n : Nat) :
    List Nat → σ × Tree → Res (σ × Tree)
  | [], x => .ok x
  | p :: ps, x => do
    let (s, t, stop) ← f x.1 x.2 p n
    if stop then return (s, t) else visitPath f n ps (s, t)

/-- The same for several terminals, each with its list. -/
def visitPaths {σ : Type} (f : σ → Tree → Nat → Nat → Res (σ × Tree × Bool)) :
    List (Nat × List Nat) → σ × Tree → Res (σ × Tree)
  | [], x => .ok x
  | (n, ps) :: rest, x => do
    let x' ← visitPath f n ps x
    visitPaths f rest x'

end Tree
end Lumberjack
