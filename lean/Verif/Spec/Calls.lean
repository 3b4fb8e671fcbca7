import Verif.Spec.History
import Verif.Spec.Convert
import Verif.Spec.Projectivize
import Verif.Model.Encode

/-!
# Histories of all calls that change a tree

The operations of `TreeOps`, `Projectivize`, `UnaryChains`, `AnnotatePOS`, of the tree itself that run
over the whole tree, and of the encoder, beside the elementary ones of `Op`.  Closures are arbitrary.
-/

namespace Lumberjack

/-- The tags are the same. -/
def Tree.SameTags (t t' : Tree) : Prop := ∀ n x y,
  t.graph.node? n = some (.term x) → t'.graph.node? n = some (.term y) → y.pos = x.pos

/-- A call that works on the whole tree. -/
inductive Batch where
  | annotatePos (tags : List Str)
  | annotateParentTag (name : Str)
  | insertIntermediate (f : Tree → Nat → Option Str)
  | filterNonterminals (f : Tree → Nat → Bool)
  | reattachTerminals (attachment : Nat) (f : Tree → Nat → Bool)
  | collapseUnaryChains (delim : Str)
  | restoreUnaryChains (delim : Str)
  | projectivize (pick : Tree → Finset Nat → Option Nat) (order : Tree.IsOrder pick)
  | projectTagSet (name : Str) (f : Tree → Nat → Bool)
  | projectIds (name : Str) (f : Tree → Nat → Bool)
  | annotateAbsolute
  | annotateRelative
  | removeDummyNodes

namespace Batch

/-- The tree after the call, whatever the call itself returns. -/
def run : Batch → Tree → Res Tree
  | annotatePos tags, t => do let (t', _) ← t.annotatePos tags; return t'
  | annotateParentTag name, t => do let (t', _) ← t.annotateParentTag name; return t'
  | insertIntermediate f, t => do let (t', _) ← t.insertIntermediate f; return t'
  | filterNonterminals f, t => do let (t', _) ← t.filterNonterminals f; return t'
  | reattachTerminals a f, t => t.reattachTerminals a f
  | collapseUnaryChains d, t => t.collapseUnaryChains d
  | restoreUnaryChains d, t => do let (t', _) ← t.restoreUnaryChains d; return t'
  | projectivize pick _, t => do let (t', _) ← t.projectivize pick; return t'
  | projectTagSet name f, t => t.projectTagSet name f
  | projectIds name f, t => t.projectIds name f
  | annotateAbsolute, t => do let (t', _) ← t.annotateAbsolute; return t'
  | annotateRelative, t => do let (t', _) ← t.annotateRelative; return t'
  | removeDummyNodes, t => do let (t', _) ← t.removeDummyNodes; return t'

/-- All calls keep a tree well formed but `restore_unary_chains` on a tree in which a discontinuous
node has a `unary_chain` feature with a value. -/
def Sound : Batch → Tree → Prop
  | restoreUnaryChains _, t => ∀ n nd chain, t.graph.node? n = some nd →
      (nd.features.getD Features.empty).getVal "unary_chain".toList = some (some chain) → ¬ t.Disc n
  | _, _ => True

/-- The only call that replaces part-of-speech tags. -/
def retags : Batch → Bool
  | annotatePos _ => true
  | _ => false

end Batch

/-- Any call of a public operation that changes a tree. -/
inductive Call where
  | op (o : Op)
  | batch (b : Batch)

namespace Call

/-- The tree after the call. -/
def run : Call → Tree → Res Tree
  | op o, t => do let (t', _) ← o.run t; return t'
  | batch b, t => b.run t

/-- The calls that keep a tree well formed. -/
def Sound : Call → Tree → Prop
  | op o, t => o.Sound t
  | batch b, t => b.Sound t

end Call

/-- `t'` is reached from `t` by the calls `cs`, in this order, each of which returns and is sound for
the tree it is applied to. -/
inductive Calls (t : Tree) : List Call → Tree → Prop where
  | refl : Calls t [] t
  | step {cs : List Call} {t₁ t₂ : Tree} (c : Call) (h : Calls t cs t₁) (hs : c.Sound t₁)
      (hr : c.run t₁ = .ok t₂) : Calls t (cs ++ [c]) t₂

end Lumberjack
