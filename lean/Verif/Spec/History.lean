import Verif.Spec.Tree

/-!
# Histories of public operations

The public operations of `Tree` as data, what running one means, and for which trees its result is
expected to be well formed.
-/

namespace Lumberjack

/-- A call of a public operation that changes a tree. -/
inductive Op where
  | insertTerminal (parent : Nat) (form pos : Str) (index : Nat)
  | pushTerminal (form pos : Str)
  | moveTerminal (n index : Nat)
  | insertUnaryAbove (n : Nat) (label : Str)
  | insertUnaryBelow (n : Nat) (label : Str)
  | removeNode (n : Nat)
  | reattachNode (newParent edge : Nat)
  | addSecondaryEdge (parent child : Nat) (label : Option Str)
  | removeSecondaryEdge (edge : Nat)
  | editNode (n : Nat) (a : Tree.Attr)
  | setEdgeLabel (edge : Nat) (label : Option Str)

namespace Op

/-- The index in a successful result. -/
def okIdx : Except Err Nat → Option Nat
  | .ok n => some n
  | .error _ => none

/-- Running the call: the tree afterwards and the index of the node it created. -/
def run : Op → Tree → Res (Tree × Option Nat)
  | insertTerminal p f po i, t => do
    let (t', n) ← t.insertTerminal p (Terminal.new f po i)
    return (t', some n)
  | pushTerminal f p, t => do
    let (t', r) ← t.pushTerminal f p
    return (t', okIdx r)
  | moveTerminal n i, t => do
    let t' ← t.moveTerminal n i
    return (t', none)
  | insertUnaryAbove n l, t => do
    let (t', n) ← t.insertUnaryAbove n l
    return (t', some n)
  | insertUnaryBelow n l, t => do
    let (t', r) ← t.insertUnaryBelow n l
    return (t', okIdx r)
  | removeNode n, t => do
    let (t', _) ← t.removeNode n
    return (t', none)
  | reattachNode p e, t => do
    let (t', _) ← t.reattachNode p e
    return (t', none)
  | addSecondaryEdge p c l, t => do
    let (t', _) ← t.addSecondaryEdge p c l
    return (t', none)
  | removeSecondaryEdge e, t => do
    let (t', _) ← t.removeSecondaryEdge e
    return (t', none)
  | editNode n a, t => do
    let t' ← t.editNode n a
    return (t', none)
  | setEdgeLabel e l, t => do
    let t' ← t.setEdgeLabel e l
    return (t', none)

/-- The node whose own attributes or existence the call is about. -/
def target : Op → Option Nat
  | removeNode n => some n
  | editNode n _ => some n
  | _ => none

/-- The calls that keep a tree well formed: all but
* unary insertion at a discontinuous node,
* removal of a terminal that has a sibling,
* moving a node to a nonterminal that is below the node itself, or that neither dominates nor is
  dominated by the node's parent. -/
def Sound : Op → Tree → Prop
  | insertUnaryAbove n _, t => ¬ t.Disc n
  | insertUnaryBelow n _, t => ¬ t.Disc n
  | removeNode n, t => t.IsTerm n → ∀ p s, t.IsChild p n → t.IsChild p s → s = n
  | reattachNode q e, t => ∀ r ∈ t.graph.edges, r.id = e → r.w.isPrimary = true → r.tgt ≠ q → t.IsNt q →
      (r.src = q ∨ ∃ s, s ≠ r.tgt ∧ t.IsChild r.src s) →
      ¬ t.Dom r.tgt q ∧ (t.Dom q r.src ∨ t.Dom r.src q)
  | _, _ => True

end Op

/-- `t'` is reached from `t` by the calls `ops`, in this order, each of which returns and is sound for
the tree it is applied to. -/
inductive History (t : Tree) : List Op → Tree → Prop where
  | refl : History t [] t
  | step {ops : List Op} {t₁ t₂ : Tree} (op : Op) (v : Option Nat) (h : History t ops t₁)
      (hs : op.Sound t₁) (hr : op.run t₁ = .ok (t₂, v)) : History t (ops ++ [op]) t₂

end Lumberjack
