import Verif.Model.Cli

/-!
# The meaning of the command line
-/

namespace Lumberjack
namespace Convert

/-- The name of an input format. -/
def InFormat.name : InFormat → Str
  | .absolute => "absolute".toList
  | .relative => "relative".toList
  | .negra => "negra".toList
  | .ptb => "ptb".toList
  | .simple => "simple".toList
  | .tueba => "tueba".toList

/-- The name of an output format. -/
def OutFormat.name : OutFormat → Str
  | .absolute => "absolute".toList
  | .conllx => "conllx".toList
  | .negra => "negra".toList
  | .ptb => "ptb".toList
  | .relative => "relative".toList
  | .simple => "simple".toList
  | .tueba => "tueba".toList

/-- The strings differ only in the case of (ASCII) letters. -/
def SameButCase (s t : Str) : Prop := List.Forall₂ (fun c d => c.toLower = d.toLower) s t

/-- The string is one of the words of the text: non-empty, without white space, and with white space or
the end of the text on either side. -/
def IsWordOf (q text : Str) : Prop :=
  q ≠ [] ∧ (∀ c ∈ q, Negra.isWs c = false) ∧ ∃ a b, text = a ++ q ++ b ∧
    (∀ c, a.getLast? = some c → Negra.isWs c = true) ∧ (∀ c, b.head? = some c → Negra.isWs c = true)

/-- The set given by a file: absent without the option, and otherwise the words of the text. -/
def SetMeans (file : Option (Option Str)) (s : Option LabelSet) : Prop :=
  (file = none ∧ s = none) ∨
  ∃ text l, file = some (some text) ∧ s = some l ∧ ∀ q, l.matches q = true ↔ IsWordOf q text

/-- The value of an option with a default. -/
def Value (given : Option Str) (default v : Str) : Prop :=
  given = some v ∨ (given = none ∧ v = default)

/-- The command line asks for the input format `f` and the options `o`. -/
structure Cli.Means (c : Cli) (f : InFormat) (o : Options) : Prop where
  inFormat : Value c.inFormat "tueba".toList f.name
  outFormat : Value c.outFormat "simple".toList o.out.name
  parent : o.parentFeature = c.parent
  reattach : o.reattachLabel = c.reattach
  removeDummies : o.removeDummies = c.removeDummies
  projectivize : o.projectivize = c.projectivize
  secEdges : o.secEdges = c.secEdges
  secEdges_requires : c.secEdges = true → c.projectivize = true
  filter : SetMeans c.filter o.filterSet
  idSet : SetMeans c.idSet o.idSet
  idFeature : Value c.idFeature "id".toList o.idFeatureName
  insertionSet : SetMeans c.insertionSet o.insertionSet
  insertionLabel : Value c.insertionLabel "UNK".toList o.insertionLabel

end Convert
end Lumberjack
