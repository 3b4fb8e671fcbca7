import Verif.Spec.Projectivize

/-!
# What projectivization does to one node, and in which order

Nodes are treated one after the other, children before parents. The gaps of a node are filled with whole branches that
leave the path from the root to the node above it.
-/

namespace Lumberjack
namespace Tree

/-- Node `c` branches off the path to `q` above `q`. -/
def Side (t : Tree) (q c : Nat) : Prop := ∃ p, t.IsChild p c ∧ t.Dom p q ∧ p ≠ q ∧ ¬ t.Dom c q

/-- The positions from `lo` to `hi` include all those of `q`, and all or none of those of each branch beside it. -/
def WholeRange (t : Tree) (q lo hi : Nat) : Prop :=
  (∀ i, t.Covers q i → lo ≤ i ∧ i ≤ hi) ∧
  ∀ c, t.Side q c → ∀ i j, t.Covers c i → t.Covers c j → lo ≤ i → i ≤ hi → lo ≤ j ∧ j ≤ hi

/-- The smallest such range of positions. -/
def LeastRange (t : Tree) (q lo hi : Nat) : Prop :=
  t.WholeRange q lo hi ∧ ∀ lo' hi', t.WholeRange q lo' hi' → lo' ≤ lo ∧ hi ≤ hi'

/-- The branches beside `q` with a position from `lo` to `hi`. -/
def TakenIn (t : Tree) (q lo hi c : Nat) : Prop := t.Side q c ∧ ∃ i, t.Covers c i ∧ lo ≤ i ∧ i ≤ hi

open Classical in
/-- `t'` is `t` with the gaps of `q` filled: the branches in the smallest such range around `q` are attached to `q` by their
old edges, and nothing else changes. -/
structure Filled (q : Nat) (t t' : Tree) : Prop where
  range : ∃ lo hi, t.LeastRange q lo hi ∧ (∀ i, t'.Covers q i ↔ lo ≤ i ∧ i ≤ hi) ∧
    (t'.graph.edges.map fun r => (r.src, r.tgt, r.w)).Perm (t.graph.edges.map fun r =>
      (if r.w.isPrimary = true ∧ t.TakenIn q lo hi r.tgt then q else r.src, r.tgt, r.w))
  content : ∀ n, t'.content n = t.content n
  termAt : ∀ n i, t'.TermAt n i ↔ t.TermAt n i
  root : t'.root = t.root
  nTerminals : t'.nTerminals = t.nTerminals

/-- The gaps of the nodes in a list filled one after the other, through well-formed trees. -/
inductive FilledAll : List Nat → Tree → Tree → Prop
  | nil (t : Tree) : FilledAll [] t t
  | cons {q : Nat} {qs : List Nat} {t t1 t' : Tree} (h : Filled q t t1) (W : t1.WF) (hs : FilledAll qs t1 t') :
      FilledAll (q :: qs) t t'

/-- The nodes in and below a list of nodes, from left to right, children before their parents. Children are taken in the
order opposite to that of `children`. -/
inductive PostOrder (t : Tree) : List Nat → List Nat → Prop
  | nil : PostOrder t [] []
  | cons {n : Nat} {ns l l' : List Nat} (h : PostOrder t ((t.children n).map (·.1)).reverse l) (hs : PostOrder t ns l') :
      PostOrder t (n :: ns) (l ++ n :: l')

end Tree
end Lumberjack
