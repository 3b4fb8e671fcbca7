import Verif.Spec.Skeleton
import Verif.Spec.ConvertRun

/-!
# The two tag formats of the conversion tool
-/

namespace Lumberjack
namespace Convert

/-- Absolute or relative tags. -/
inductive TagKind where
  | absolute
  | relative
deriving DecidableEq

/-- The input format. -/
def TagKind.input : TagKind → InFormat
  | .absolute => .absolute
  | .relative => .relative

/-- The output format. -/
def TagKind.output : TagKind → OutFormat
  | .absolute => .absolute
  | .relative => .relative

/-- The feature in which the tag is stored. -/
def TagKind.feature : TagKind → Str
  | .absolute => "abs_ancestor".toList
  | .relative => "rel_ancestor".toList

/-- The tree can be stored in tags of the kind: relative tags do not allow the label `NONE`. -/
structure TagKind.Holds (k : TagKind) (t : Tree) : Prop where
  storable : t.Storable k.feature
  label : k = .relative → ∀ n x, t.graph.node? n = some (.nt x) → x.label ≠ "NONE".toList

/-- The provisos that concern the labels and the height. -/
structure TagKind.Names (k : TagKind) (t : Tree) : Prop where
  label : ∀ n x, t.graph.node? n = some (.nt x) → Conllx.TagLabel x.label
  notNone : k = .relative → ∀ n x, t.graph.node? n = some (.nt x) → x.label ≠ "NONE".toList
  height : ∀ f, t.Is f → f.height < 2 ^ 63

/-- The words have no lemmas and no features. -/
def BareWords (t : Tree) : Prop := ∀ n x, t.graph.node? n = some (.term x) →
  x.lem = none ∧ x.features.getD Features.empty = Features.empty

end Convert
end Lumberjack
