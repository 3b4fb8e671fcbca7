import Verif.Spec.Bracket
import Verif.Spec.ConvertRun
import Verif.Spec.Iso

/-!
# Trees a bracketed format keeps as they are
-/

namespace Lumberjack
namespace Tree

/-- The tree has nothing that the bracketed format cannot hold: neither gaps nor secondary edges, words without lemma
and features, inner nodes without features but an annotation, all strings representable; the TueBa format holds edge
labels and annotations, the others do not. -/
structure HeldBy (g : Ptb.Format) (t : Tree) : Prop where
  wf : t.WF
  noGap : t.isProjective = true
  primary : t.NoSecondary
  writable : t.Writable g
  annotated : t.OnlyAnnotated
  bare : g ≠ .tueba → (∀ n, t.inLabel n = none) ∧ ∀ n x, t.graph.node? n = some (.nt x) → x.features = none

/-- No label, tag or annotation has a colon or an equals sign. -/
def NoSigns (t : Tree) : Prop :=
  ∀ n nd, t.graph.node? n = some nd → ':' ∉ nd.label ∧ '=' ∉ nd.label ∧
    ∀ a, Bracketed.annotationOf nd.features = some a → ':' ∉ a ∧ '=' ∉ a

end Tree
end Lumberjack
