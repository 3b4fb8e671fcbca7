import Verif.Proofs.Sort
import Verif.Spec.Examples

/-!
# Sorting nodes (C55)
-/

namespace Lumberjack
namespace Props

open Lumberjack.Tree

/-- C55: any list of nodes is sorted by first position, last position, number of positions, terminals before
nonterminals, number of children and text; nodes that agree in all of this keep their order. -/
theorem C55_sorted (t : Tree) (l : List Nat) (hl : ∀ n ∈ l, t.Live n) :
    (t.sortIndices l).Perm l ∧ (t.sortIndices l).Pairwise (fun a b => t.sortKey a ≤ t.sortKey b) ∧
    ∀ a b, [a, b].Sublist l → t.sortKey a ≤ t.sortKey b → [a, b].Sublist (t.sortIndices l) := by
  refine ⟨sortIndices_perm l, ?_, fun a b h1 h2 => ?_⟩
  · have e : t.sortIndices l = l.insertionSort fun a b => t.sortKey a ≤ t.sortKey b :=
      insertionSort_congr l fun a ha b hb => cmpNodes_key t (hl a ha) (hl b hb)
    rw [e]
    have : Std.Total fun a b : Nat => t.sortKey a ≤ t.sortKey b := ⟨fun a b => le_total _ _⟩
    have : IsTrans Nat fun a b => t.sortKey a ≤ t.sortKey b := ⟨fun a b c => le_trans⟩
    exact List.pairwise_insertionSort _ _
  · exact List.pair_sublist_insertionSort ((cmpNodes_key t (hl a (h1.subset (by simp))) (hl b (h1.subset (by simp)))).2 h2) h1

/-- A terminal comes before the nonterminal above it if that has no other children. -/
example : (⟨⟨[Examples.nt "S" ⟨0, 1, none⟩, Examples.tm "a" "X" 0], [], [Examples.pe 0 0 1], 1, []⟩, 1, 0, 0⟩ : Tree).sortIndices
    [0, 1] = [1, 0] := by decide +kernel

end Props
end Lumberjack
