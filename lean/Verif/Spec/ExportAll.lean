import Verif.Spec.NegraForest
import Verif.Spec.RewriteAny

/-!
# The NEGRA texts of several ordered trees
-/

namespace Lumberjack
namespace Forest

/-- The counter after a tree: one more if the tree has no sentence id. -/
def exportNext (counter : Nat) (F : Forest) : Nat :=
  if (Negra.featOf F.topFeatures "sentence_id".toList).isSome then counter else counter + 1

/-- The texts of trees one after the other, `counter` being the number of trees without sentence id before them. -/
def exportTexts : Nat → List Forest → List Convert.Written
  | _, [] => []
  | counter, F :: Fs => .text (F.exportText counter) :: exportTexts (F.exportNext counter) Fs

end Forest
end Lumberjack
