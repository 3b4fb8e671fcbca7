import Verif.Spec.NegraTrip

/-!
# Numbers and metadata of the trees of a file
-/

namespace Lumberjack
namespace Negra

open Lumberjack.Tree

/-- The trees can be held by the NEGRA format, and the `i`-th has number `ids i` and metadata `infos i` if the writer has
counted `c` trees without number before. -/
def HeadsFrom (c : Nat) (ts : List Tree) (ids : Nat → Nat) (infos : Nat → Option Str) : Prop :=
  ∀ (i : Nat) (t : Tree), ts[i]? = some t → Exportable t ∧ Head t (c + ((ts.take i).filter
    fun u => (featOf (rootFeatures u) "sentence_id".toList).isNone).length) (ids i) (infos i)

end Negra
end Lumberjack
