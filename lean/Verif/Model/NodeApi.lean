import Verif.Model.Node

/-!
# Model of the accessors and the display of nodes and edges

The parts of `lumberjack/src/node.rs` and `lumberjack/src/edge.rs` that users call on single nodes and edges.  A
method that changes its receiver and returns a value is a function to the pair of both.
-/

namespace Lumberjack

namespace Edge
/-- edge.rs:25-30 `Edge::new_primary`. -/
def newPrimary (l : Option Str) : Edge := primary l

/-- edge.rs:35-40 `Edge::new_secondary`. -/
def newSecondary (l : Option Str) : Edge := secondary l

/-- edge.rs:60-68 `Edge::set_label`, with the old label it returns. -/
def replaceLabel (l : Option Str) : Edge → Edge × Option Str
  | primary e => (primary l, e)
  | secondary e => (secondary l, e)

/-- edge.rs:12-19 `Display for Edge`. -/
def display (e : Edge) : Str :=
  match e.label with
  | some l => l
  | none => ['-', '-']
end Edge

namespace NonTerminal
/-- node.rs:220-226 `NonTerminal::continuity`. -/
def continuity (n : NonTerminal) : Continuity :=
  if n.span.skips.isSome then .discontinuous else .continuous

/-- node.rs:228-230 `NonTerminal::set_span`. -/
def setSpan (n : NonTerminal) (s : Span) : NonTerminal × Span := ({ n with span := s }, n.span)

/-- node.rs:237-245 `NonTerminal::merge_spans`. -/
def mergeSpans (n : NonTerminal) (s : Span) : Res (NonTerminal × Continuity) := do
  let m ← n.span.mergeSpans s
  return ({ n with span := m }, if m.skips.isSome then .discontinuous else .continuous)

/-- node.rs:250-255 `NonTerminal::remove_indices`. -/
def removeIndices (n : NonTerminal) (v : List Nat) : Res (NonTerminal × Continuity) := do
  let (s, c) ← n.span.removeIndices v
  return ({ n with span := s }, c)

/-- node.rs:265-272 `NonTerminal::features_mut`: the node and the features that can now be changed. -/
def featuresMut (n : NonTerminal) : NonTerminal × Features :=
  match n.features with
  | some f => (n, f)
  | none => ({ n with features := some Features.empty }, Features.empty)

/-- node.rs:277-279 `NonTerminal::set_features`. -/
def setFeatures (n : NonTerminal) (f : Option Features) : NonTerminal × Option Features :=
  ({ n with features := f }, n.features)

/-- node.rs:292-294 `NonTerminal::set_label`. -/
def setLabel (n : NonTerminal) (l : Str) : NonTerminal × Str := ({ n with label := l }, n.label)

/-- node.rs:297-301 `Display for NonTerminal`. -/
def display (n : NonTerminal) : Str := n.label
end NonTerminal

namespace Terminal
/-- node.rs:372-374 `Terminal::set_form`. -/
def setForm (t : Terminal) (s : Str) : Terminal × Str := ({ t with form := s }, t.form)

/-- node.rs:382-384 `Terminal::set_label`. -/
def setLabel (t : Terminal) (l : Str) : Terminal × Str := ({ t with pos := l }, t.pos)

/-- node.rs:394-401 `Terminal::features_mut`. -/
def featuresMut (t : Terminal) : Terminal × Features :=
  match t.features with
  | some f => (t, f)
  | none => ({ t with features := some Features.empty }, Features.empty)

/-- node.rs:406-408 `Terminal::set_features`. -/
def setFeatures (t : Terminal) (f : Option Features) : Terminal × Option Features :=
  ({ t with features := f }, t.features)

/-- node.rs:411-413 `Terminal::lemma`. -/
def lemma? (t : Terminal) : Option Str := t.lem

/-- node.rs:416-421 `Terminal::set_lemma`. -/
def setLemma (t : Terminal) (l : Option Str) : Terminal × Option Str := ({ t with lem := l }, t.lem)

/-- node.rs:424-428 `Display for Terminal`. -/
def display (t : Terminal) : Str := t.pos ++ ' ' :: t.form
end Terminal

namespace Node
/-- node.rs:83-88 `Node::terminal_mut` followed by a call on the terminal. -/
def onTerminal {α : Type} (f : Terminal → Terminal × α) : Node → Option (Node × α)
  | nt _ => none
  | term t => some (term (f t).1, (f t).2)

/-- node.rs:61-66 `Node::nonterminal_mut` followed by a call on the nonterminal. -/
def onNonTerminal {α : Type} (f : NonTerminal → NonTerminal × α) : Node → Option (Node × α)
  | term _ => none
  | nt n => some (nt (f n).1, (f n).2)

/-- node.rs:103-108 `Node::set_label`, with the old label it returns. -/
def replaceLabel (l : Str) : Node → Node × Str
  | nt n => (nt (n.setLabel l).1, (n.setLabel l).2)
  | term t => (term (t.setLabel l).1, (t.setLabel l).2)

/-- node.rs:131-136 `Node::set_features`, with the old features it returns. -/
def replaceFeatures (f : Option Features) : Node → Node × Option Features
  | nt n => (nt (n.setFeatures f).1, (n.setFeatures f).2)
  | term t => (term (t.setFeatures f).1, (t.setFeatures f).2)

/-- node.rs:121-126 `Node::features_mut`: the node and the features that can now be changed. -/
def openFeatures : Node → Node × Features
  | nt n => (nt n.featuresMut.1, n.featuresMut.2)
  | term t => (term t.featuresMut.1, t.featuresMut.2)

/-- node.rs:174-181 `Display for Node`. -/
def display : Node → Str
  | term t => t.pos ++ ' ' :: t.form
  | nt n => n.label
end Node
end Lumberjack
