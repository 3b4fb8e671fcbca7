import Verif.Model.Span
import Verif.Model.Features

/-!
# Model of `lumberjack/src/node.rs` and `lumberjack/src/edge.rs`
-/

namespace Lumberjack

/-- edge.rs:6-9 `enum Edge`. -/
inductive Edge where
  | primary (label : Option Str)
  | secondary (label : Option Str)
deriving DecidableEq

namespace Edge
/-- edge.rs:43-49 `Edge::is_primary`. -/
def isPrimary : Edge → Bool
  | primary _ => true
  | secondary _ => false

/-- edge.rs:52-57 `Edge::label`. -/
def label : Edge → Option Str
  | primary l => l
  | secondary l => l

/-- edge.rs:60-68 `Edge::set_label` (the returned old label is `label`). -/
def setLabel (l : Option Str) : Edge → Edge
  | primary _ => primary l
  | secondary _ => secondary l
end Edge

/-- node.rs:187-191 `struct NonTerminal`. -/
structure NonTerminal where
  label : Str
  features : Option Features
  span : Span
deriving DecidableEq

/-- node.rs:312-318 `struct Terminal`. -/
structure Terminal where
  form : Str
  pos : Str
  lem : Option Str
  features : Option Features
  span : Span
deriving DecidableEq

/-- node.rs:198-203, 325-330: comparison of optional features; absent and empty agree. -/
def featuresEq : Option Features → Option Features → Bool
  | some f, some g => decide (f = g)
  | none, none => true
  | some f, none => f.entries.isEmpty
  | none, some f => f.entries.isEmpty

namespace NonTerminal
/-- node.rs:208-214 `NonTerminal::new`. -/
def new (label : Str) (span : Span) : NonTerminal := ⟨label, none, span⟩

/-- node.rs:193-205 `PartialEq for NonTerminal`. -/
def eq (a b : NonTerminal) : Bool :=
  if a.label ≠ b.label ∨ a.span ≠ b.span then false else featuresEq a.features b.features
end NonTerminal

namespace Terminal
/-- node.rs:338-346 `Terminal::new`. -/
def new (form pos : Str) (idx : Nat) : Terminal := ⟨form, pos, none, none, Span.ofIdx idx⟩

/-- node.rs:357-359 `Terminal::idx`. -/
def idx (t : Terminal) : Nat := t.span.start

/-- node.rs:362-364 `Terminal::set_idx`. -/
def setIdx (t : Terminal) (i : Nat) : Terminal := { t with span := Span.ofIdx i }

/-- node.rs:320-332 `PartialEq for Terminal` (the form is not compared). -/
def eq (a b : Terminal) : Bool :=
  if a.pos ≠ b.pos ∨ a.span ≠ b.span ∨ a.lem ≠ b.lem then false
  else featuresEq a.features b.features
end Terminal

/-- node.rs:10-15 `enum Node`. -/
inductive Node where
  | nt (n : NonTerminal)
  | term (t : Terminal)
deriving DecidableEq

namespace Node

/-- node.rs:9 derived `PartialEq for Node`. -/
def eq : Node → Node → Bool
  | nt a, nt b => a.eq b
  | term a, term b => a.eq b
  | _, _ => false

/-- node.rs:31-36 `Node::is_terminal`. -/
def isTerminal : Node → Bool
  | term _ => true
  | nt _ => false

/-- node.rs:41-46 `Node::terminal`. -/
def terminal : Node → Option Terminal
  | term t => some t
  | nt _ => none

/-- node.rs:51-56 `Node::nonterminal`. -/
def nonterminal : Node → Option NonTerminal
  | term _ => none
  | nt n => some n

/-- node.rs:93-98 `Node::label`. -/
def label : Node → Str
  | nt n => n.label
  | term t => t.pos

/-- node.rs:103-108 `Node::set_label` (the returned old label is `label`). -/
def setLabel (l : Str) : Node → Node
  | nt n => nt { n with label := l }
  | term t => term { t with pos := l }

/-- node.rs:111-116 `Node::features`. -/
def features : Node → Option Features
  | nt n => n.features
  | term t => t.features

/-- node.rs:131-136 `Node::set_features`. -/
def setFeatures (f : Option Features) : Node → Node
  | nt n => nt { n with features := f }
  | term t => term { t with features := f }

/-- node.rs:121-126 `Node::features_mut`: the features an in-place update starts from.  Calling it
replaces absent features by empty ones even when nothing is inserted. -/
def featuresMut (n : Node) : Features := n.features.getD Features.empty

/-- node.rs:139-144 `Node::span`. -/
def span : Node → Span
  | nt n => n.span
  | term t => t.span

/-- `mem::replace` of the span field of either kind of node. -/
def replaceSpan (s : Span) : Node → Node
  | nt n => nt { n with span := s }
  | term t => term { t with span := s }

/-- node.rs:72-78 `Node::continuity`. -/
def continuity (n : Node) : Continuity := n.span.continuity

/-- node.rs:147-160 `Node::set_span`. -/
def setSpan (s : Span) : Node → Except Err Node
  | term t =>
    if s.skips.isSome then .error .discTerminalSpan
    else if s.nIndices ≠ 1 then .error .terminalSpanLen
    else .ok (term { t with span := s })
  | nt n => .ok (nt { n with span := s })

/-- node.rs:163-171 `Node::extend_span`. -/
def extendSpan : Node → Except Err Node
  | term _ => .error .extendTerminal
  | nt n => .ok (nt { n with span := n.span.extend })

end Node
end Lumberjack
