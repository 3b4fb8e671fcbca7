import Verif.Spec.Annotate

/-!
# Specification vocabulary for closures that edit the tree while climbing
-/

namespace Lumberjack
namespace Tree

/-- A closure (with state `σ`) that keeps `I` and, when called with nonterminal `p`, leaves the parents of all the nodes
above `p` as they are and removes none of them. It may move, remove or surround `p` itself and change anything below and beside. -/
def KeepsAbove {σ : Type} (I : Tree → Prop) (f : σ → Tree → Nat → Nat → Res (σ × Tree × Bool)) : Prop :=
  ∀ s t p n s' t' b, I t → t.IsNt p → f s t p n = .ok (s', t', b) →
    I t' ∧ ∀ q, q ≠ p → t.Dom q p → t'.IsNt q ∧ ∀ a, t'.IsChild a q ↔ t.IsChild a q

/-- `r` comes from visiting the terminals of a list one after the other: a terminal that is still there is visited
by calling the closure with the nodes which are above it at the beginning of that visit, from the parent upwards,
until it returns `true`. -/
inductive Visits {σ : Type} (f : σ → Tree → Nat → Nat → Res (σ × Tree × Bool)) :
    List Nat → σ × Tree → Res (σ × Tree) → Prop
  | done (x : σ × Tree) : Visits f [] x (.ok x)
  | gone (x : σ × Tree) (n : Nat) (ns : List Nat) (r : Res (σ × Tree)) : ¬ x.2.Live n → Visits f ns x r →
      Visits f (n :: ns) x r
  | next (x y : σ × Tree) (n : Nat) (ns l : List Nat) (r : Res (σ × Tree)) : x.2.PathUp n l →
      visitPath f n l x = .ok y → Visits f ns y r → Visits f (n :: ns) x r
  | panics (x : σ × Tree) (n : Nat) (ns l : List Nat) : x.2.PathUp n l → visitPath f n l x = .panic →
      Visits f (n :: ns) x .panic
  | diverges (x : σ × Tree) (n : Nat) (ns l : List Nat) : x.2.PathUp n l → visitPath f n l x = .diverge →
      Visits f (n :: ns) x .diverge

/-- `t'` is `t` without the nodes of `R`, the children of a removed node having moved to the closest remaining node
above it, and with the terminal at each index `n` changed by `g n`. -/
structure Pruned (t t' : Tree) (R : Nat → Prop) (g : Nat → Terminal → Terminal) : Prop where
  wf : t'.WF
  root : t'.root = t.root
  nTerm : t'.nTerminals = t.nTerminals
  gone : ∀ n, R n → ¬ t'.Live n
  old : ∀ n, t'.Live n → t.Live n
  nt : ∀ n x, ¬ R n → t.graph.node? n = some (.nt x) → t'.graph.node? n = some (.nt x)
  term : ∀ n x, t.graph.node? n = some (.term x) → t'.graph.node? n = some (.term (g n x))
  dom : ∀ a b, ¬ R a → ¬ R b → (t'.Dom a b ↔ t.Dom a b)
  kept : ∀ r ∈ t.graph.edges, ¬ R r.src → ¬ R r.tgt → r ∈ t'.graph.edges
  added : ∀ r ∈ t'.graph.edges, r ∈ t.graph.edges ∨ (t.Dom r.src r.tgt ∧ r.w = .primary none)

/-- The nonterminals with a label in `P`. -/
def HasLabel (P : Str → Bool) (t : Tree) (n : Nat) : Prop :=
  ∃ x, t.graph.node? n = some (.nt x) ∧ P x.label = true

/-- The same as a test. -/
def hasLabel (P : Str → Bool) (t : Tree) (n : Nat) : Bool :=
  match t.graph.node? n with
  | some (.nt x) => P x.label
  | _ => false

/-- The labels at which climbing stops, if nodes with a label in `rm` are removed and the first other node with a
label in `top` is the last to be visited. -/
def stopAt (rm top : Str → Bool) (l : Str) : Bool := !rm l && top l

/-- The nodes removed on the way up from `n`: those with a label in `rm` that are below every stopping node above
`n`. -/
def GoneOn (t : Tree) (rm top : Str → Bool) (n a : Nat) : Prop :=
  HasLabel rm t a ∧ t.Dom a n ∧ ∀ b, HasLabel (stopAt rm top) t b → t.Dom b n → t.Dom b a

end Tree
end Lumberjack
