import Verif.Model.NodeApi
import Verif.Spec.Span

/-!
# The attributes of a node
-/

namespace Lumberjack

/-- What the read-only methods of a node tell: `is_terminal`, `form` and `lemma` (of a terminal), `label`, `features`
and `span`. -/
structure Attrs where
  terminal : Bool
  form : Option Str
  label : Str
  lemma? : Option Str
  features : Option Features
  span : Span

/-- The attributes of a node, read with its methods. -/
def Node.attrs (n : Node) : Attrs where
  terminal := n.isTerminal
  form := n.terminal.map Terminal.form
  label := n.label
  lemma? := n.terminal.bind Terminal.lemma?
  features := n.features
  span := n.span

end Lumberjack
