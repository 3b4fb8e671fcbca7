import Verif.Spec.Forest

/-!
# Nodes inserted above runs of adjacent terminals
-/

namespace Lumberjack
namespace Tree

/-- All positions from `i` to `j` (in either direction) are in `S`. -/
def Conn (S : Nat → Prop) (i j : Nat) : Prop := ∀ k, (i ≤ k ∧ k ≤ j) ∨ (j ≤ k ∧ k ≤ i) → S k

/-- `c` and `d` are terminals and every position from the one to the other is held by a terminal in
`A`: they belong to the same run of adjacent terminals in `A`. -/
def Run (t : Tree) (A : Nat → Prop) (c d : Nat) : Prop :=
  ∃ i j, t.TermAt c i ∧ t.TermAt d j ∧ Conn (fun k => ∃ e, A e ∧ t.TermAt e k) i j

/-- `t'` is `t` with one node labelled `lab p` inserted, for every `p`, above every maximal run of
adjacent terminals among the terminal children `c` of `p` with `K p c`. Nothing else changes, except
that the edges to the terminals of a run other than the first lose their label. -/
structure Inserted (t : Tree) (K : Nat → Nat → Prop) (lab : Nat → Str) (t' : Tree) : Prop where
  wf : t'.WF
  root : t'.root = t.root
  nterm : t'.nTerminals = t.nTerminals
  /-- existing nodes are unchanged (spans included) -/
  old : ∀ n, t.Live n → t'.graph.node? n = t.graph.node? n
  /-- children outside of `K` stay where they are -/
  child : ∀ a b, t.Live a → t.Live b → (t'.IsChild a b ↔ t.IsChild a b ∧ ¬ K a b)
  /-- children in `K` are below a new node -/
  cover : ∀ p c, K p c → ∃ n, ¬ t.Live n ∧ t'.IsChild n c
  /-- every new node is one for a run -/
  new : ∀ n, t'.Live n → ¬ t.Live n → ∃ p c, K p c ∧ t'.IsChild p n ∧ t'.inLabel n = none ∧
    (∃ s, t'.graph.node? n = some (.nt (NonTerminal.new (lab p) s))) ∧
    ∀ d, t'.IsChild n d ↔ t.Run (K p) c d
  /-- secondary edges and edges to other nodes are kept -/
  edges : ∀ r ∈ t.graph.edges, (r.w.isPrimary = false ∨ ¬ K r.src r.tgt) → r ∈ t'.graph.edges
  /-- edge labels -/
  follow : ∀ p c d i, K p c → K p d → t.TermAt d i → t.TermAt c (i + 1) → t'.inLabel c = none
  first : ∀ c, t.Live c → (∀ p d i, K p c → K p d → t.TermAt d i → ¬ t.TermAt c (i + 1)) →
    t'.inLabel c = t.inLabel c
  /-- there are no other secondary edges -/
  secondary : ∀ r ∈ t'.graph.edges, r.w.isPrimary = false → r ∈ t.graph.edges

/-- A function of nodes that only looks at the node (label, features, span). -/
def NodeFn (f : Tree → Nat → Option Str) : Prop := ∀ t t' n,
  t.graph.node? n = t'.graph.node? n → f t n = f t' n

/-- `f` gives no label to a fresh node labelled `l`. -/
def Silent (f : Tree → Nat → Option Str) (l : Str) : Prop := ∀ (t : Tree) n s,
  t.graph.node? n = some (.nt (NonTerminal.new l s)) → f t n = none

/-- The first terminal child of `p` in the sentence is the one with the least index. -/
def FirstLeast (t : Tree) (p : Nat) : Prop := ∀ c i, t.IsChild p c → t.TermAt c i →
  (∀ d j, t.IsChild p d → t.TermAt d j → i ≤ j) → ∀ d, t.IsChild p d → t.IsTerm d → c ≤ d

end Tree
end Lumberjack
