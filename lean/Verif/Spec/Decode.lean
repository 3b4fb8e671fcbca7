import Verif.Spec.Ancestor

/-!
# Decoding a tag sequence into a forest

What a sequence of absolute ancestors means, as a machine on a stack of unfinished nonterminals (the
topmost first).  No graph, no indices, no spans.
-/

namespace Lumberjack
namespace Decoding

/-- An unfinished nonterminal and the trees attached to it so far. -/
abbrev Stack := List (NonTerminal × Forest)

/-- A node whose label is not yet known. -/
def fresh : NonTerminal := ⟨"DUMMY".toList, none, Span.ofIdx 0⟩

/-- Put a label on a node: what comes before the last `_` is the chain. -/
def relabel (l : Str) (x : NonTerminal) : NonTerminal :=
  match rsplitOnce '_' l with
  | some (c, l') =>
    { x with label := l', features := some ((x.features.getD Features.empty).insert Forest.chainKey (some c)).1 }
  | none => { x with label := l }

/-- Put a chain on a terminal. -/
def chained (c : Option Str) (x : Terminal) : Terminal :=
  match c with
  | some c => { x with features := some ((x.features.getD Features.empty).insert Forest.chainKey (some c)).1 }
  | none => x

/-- Attach trees to the topmost unfinished node. -/
def app (F : Forest) : Stack → Stack
  | [] => []
  | (x, d) :: Z => (x, d.append F) :: Z

/-- Label the topmost unfinished node. -/
def rel (l : Str) : Stack → Stack
  | [] => []
  | (x, d) :: Z => (relabel l x, d) :: Z

/-- Start `k` nodes below the topmost. -/
def push : Nat → Stack → Stack
  | 0, Z => Z
  | k + 1, Z => push k ((fresh, .nil) :: Z)

/-- Finish `k` nodes, attaching each to the one below it on the stack. -/
def pop : Nat → Stack → Stack
  | 0, Z => Z
  | _ + 1, [] => []
  | _ + 1, [f] => [f]
  | k + 1, (x, d) :: (y, e) :: Z => pop k ((y, e.append (.node none x d .nil)) :: Z)

/-- Start nodes until there are at least `n`. -/
def pushTo (n : Nat) (Z : Stack) : Stack := push (n - Z.length) Z

/-- Finish nodes until there are at most `n`. -/
def popTo (n : Nat) (Z : Stack) : Stack := pop (Z.length - n) Z

/-- One terminal: it goes to the topmost node, after starting nodes if it and the next terminal have more
common ancestors than there are unfinished nodes; then the nodes they do not share are finished and the
lowest common one gets its label. -/
def step (Z : Stack) (e : Option AbsAncestor) (x : Terminal) : Stack :=
  match e with
  | none => app (.leaf none x .nil) Z
  | some a => rel a.label (popTo a.common (app (.leaf none x .nil) (pushTo a.common Z)))

/-- All terminals. -/
def run : List ((Option AbsAncestor × Option Str) × Terminal) → Stack → Stack
  | [], Z => Z
  | ((e, c), x) :: rest, Z => run rest (step Z e (chained c x))

/-- The forest an encoding of a non-empty sentence stands for, apart from the spans of inner nodes. -/
def forest (e : AbsEncoding) (ts : List Terminal) : Forest :=
  match e, ts with
  | [(none, c)], [x] => .leaf none (chained c x) .nil
  | _, _ => match popTo 1 (run (e.zip ts) [(fresh, .nil)]) with
    | (x, d) :: _ => .node none x d .nil
    | [] => .nil

end Decoding

namespace Forest

/-- Give every inner node the span of its terminals, the first of which is number `k`. -/
def respan : Nat → Forest → Forest
  | _, nil => nil
  | k, leaf e x r => leaf e x (r.respan (k + 1))
  | k, node e x ks r =>
    node e { x with span := ⟨k, k + ks.leaves.length, none⟩ } (ks.respan k) (r.respan (k + ks.leaves.length))

end Forest

namespace Tree

/-- The provisos under which encoding loses nothing. -/
structure Encodable (t : Tree) : Prop where
  /-- no unary branches ... -/
  unary : ∀ n c, ¬ t.OnlyChild n c
  /-- ... and no labels on edges -/
  edges : ∀ r ∈ t.graph.edges, r.w.isPrimary = true → r.w.label = none
  /-- nonterminals have no features but `unary_chain` -/
  features : ∀ n x, t.graph.node? n = some (.nt x) → x.features.getD Features.empty = Features.empty ∨
    ∃ c, x.features.getD Features.empty = ⟨[(Forest.chainKey, some c)]⟩
  /-- labels do not contain the delimiter of chains -/
  label : ∀ n x, t.graph.node? n = some (.nt x) → '_' ∉ x.label
  /-- features of terminals are ordered maps (see C07) -/
  sorted : ∀ n x, t.graph.node? n = some (.term x) → (x.features.getD Features.empty).Sorted

/-- `ts` are the terminals of the tree from left to right. -/
def Terminals (t : Tree) (ts : List Terminal) : Prop :=
  ts.length = t.nTerminals ∧ ∀ n x i, t.graph.node? n = some (.term x) → t.TermAt n i → ts[i]? = some x

end Tree
end Lumberjack
