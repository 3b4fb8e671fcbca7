import Verif.Spec.Tree
import Mathlib.Data.Prod.Lex
import Mathlib.Data.List.Lex
import Mathlib.Data.Char

/-!
# The order of node lists
-/

namespace Lumberjack
namespace Tree

/-- What nodes are sorted by: first position, last position, number of positions, terminals first, number of
children (of nonterminals), form of a terminal or label of a nonterminal. -/
def sortKey (t : Tree) (n : Nat) : ℕ ×ₗ ℕ ×ₗ ℕ ×ₗ ℕ ×ₗ ℕ ×ₗ List Char :=
  match t.graph.node? n with
  | some (.term x) => toLex (x.span.start, toLex (x.span.stop, toLex (x.span.nIndices, toLex (0, toLex (0, x.form)))))
  | some (.nt x) => toLex (x.span.start, toLex (x.span.stop, toLex (x.span.nIndices,
      toLex (1, toLex ((t.children n).length, x.label)))))
  | none => toLex (0, toLex (0, toLex (0, toLex (0, toLex (0, [])))))

end Tree
end Lumberjack
