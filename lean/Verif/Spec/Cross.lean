import Verif.Spec.Stable
import Verif.Spec.Bracket
import Verif.Spec.NegraTrip

/-!
# Going through the NEGRA format
-/

namespace Lumberjack

/-- The same tree, with a root that is labelled `VROOT` and has no features. -/
def Forest.underVroot : Forest → Forest
  | .node e x k r => .node e { x with label := "VROOT".toList, features := none } k r
  | f => f

namespace Convert

/-- The root is a nonterminal labelled `VROOT` without annotation. -/
def TopVroot (t : Tree) : Prop :=
  ∃ x, t.graph.node? t.root = some (.nt x) ∧ x.label = "VROOT".toList ∧ Bracketed.annotationOf x.features = none

/-- The trees of a file can be held by the NEGRA format and are numbered: each has its number in the features of the
root, or is given that of its place among the trees without number. -/
def Numbered (ts : List Tree) : Prop :=
  ∀ (i : Nat) (t : Tree), ts[i]? = some t → Negra.Exportable t ∧ ∃ id info, Negra.Head t ((ts.take i).filter
    fun u => (Negra.featOf (Negra.rootFeatures u) "sentence_id".toList).isNone).length id info

end Convert
end Lumberjack
