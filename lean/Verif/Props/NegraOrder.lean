import Verif.Proofs.NegraOrder
import Verif.Proofs.Check
import Verif.Spec.Examples

/-!
# The order of the nonterminal lines of the NEGRA format (C51)
-/

namespace Lumberjack
namespace Props

open Lumberjack.Tree Negra

/-- C51: the nonterminals are numbered and written in the order in which they are complete: a nonterminal follows
as soon as all nonterminals below it have their lines, the lowest ones being taken by their first words. -/
theorem C51_order (t : Tree) (W : t.WF) (hr : t.IsNt t.root)
    (hs : ∀ r ∈ t.graph.edges, r.w.isPrimary = false → t.IsNt r.src) (counter : Nat) :
    ∃ ns nts T N tl nl, Leaves t ns ∧ InSequence t nts ∧
      List.Forall₂ (IsTermRow t (num t nts)) ns T ∧ List.Forall₂ (IsNtRow t (num t nts)) nts N ∧
      List.Forall₂ (fun l r => l = aligned widths (TermRow.columns r)) tl T ∧
      List.Forall₂ (fun l r => l = aligned widths (NtRow.columns r)) nl N ∧
      writeTree counter t = .ok
        (unlines (header ((featOf (rootFeatures t) "sentence_id".toList).getD (natToStr counter))
            (featOf (rootFeatures t) "metadata".toList) ::
          (tl ++ nl ++ [footer ((featOf (rootFeatures t) "sentence_id".toList).getD (natToStr counter)), []])),
         if (featOf (rootFeatures t) "sentence_id".toList).isSome then counter else counter + 1) :=
  writeTree_sequence W hr hs counter

/-- C51: there is only one such order. -/
theorem C51_order_unique (t : Tree) (W : t.WF) (l m : List Nat) (hl : InSequence t l) (hm : InSequence t m) : l = m :=
  hl.unique W hm

/-- `(ROOT (XP (NP (N a) (N c))) (Y (V b)) (W d))`: `NP` has a gap that `Y` fills. -/
def stacked : Tree :=
  ⟨⟨[Examples.tm "a" "N" 0, Examples.tm "b" "V" 1, Examples.tm "c" "N" 2, Examples.tm "d" "W" 3,
      Examples.nt "NP" ⟨0, 3, some {1}⟩, Examples.nt "XP" ⟨0, 3, some {1}⟩, Examples.nt "Y" ⟨1, 2, none⟩,
      Examples.nt "ROOT" ⟨0, 4, none⟩],
    [], [Examples.pe 6 7 3, Examples.pe 5 7 6, Examples.pe 4 7 5, Examples.pe 3 6 1, Examples.pe 2 5 4,
      Examples.pe 1 4 2, Examples.pe 0 4 0], 7, []⟩, 4, 7, 2⟩

theorem stacked_wf : stacked.WF := wf_of_check (by decide +kernel)

theorem stacked_secondary : ∀ r ∈ stacked.graph.edges, r.w.isPrimary = false → stacked.IsNt r.src := by
  have : ∀ r ∈ stacked.graph.edges, r.w.isPrimary = true := by decide
  intro r h1 h2
  rw [this r h1] at h2
  exact absurd h2 (by decide)

/-- The hypotheses are met by this tree: `XP` follows `NP` and precedes `Y`, and no other order is possible. -/
example : stacked.WF ∧ stacked.IsNt stacked.root ∧
    (∀ r ∈ stacked.graph.edges, r.w.isPrimary = false → stacked.IsNt r.src) ∧
    InSequence stacked [4, 5, 6] ∧ ¬ InSequence stacked [4, 6, 5] ∧
    writeTree 1 stacked = .ok (unlines (List.map String.toList
      ["#BOS 1",
       "a                               --                              N               --                      --              500",
       "b                               --                              V               --                      --              502",
       "c                               --                              N               --                      --              500",
       "d                               --                              W               --                      --              0",
       "#500                            --                              NP              --                      --              501",
       "#501                            --                              XP              --                      --              0",
       "#502                            --                              Y               --                      --              0",
       "#EOS 1", ""]), 2) := by
  have W := stacked_wf
  have h : InSequence stacked [4, 5, 6] := by
    obtain ⟨_, nts, _, _, _, _, ⟨s, h1, rfl⟩, _, h3, _⟩ := writeTree_numbered W ⟨_, rfl⟩ stacked_secondary 1
    obtain ⟨s', g1, g2⟩ := number_sequence W
    rw [h1, Res.ok.injEq] at g1
    subst g1
    have e : (number stacked (stacked.sortIndices stacked.terminals)).bind (fun s => .ok s.nts) = .ok [4, 5, 6] := by
      decide +kernel
    rw [h1] at e
    have e' : s.nts = [4, 5, 6] := by simpa [Res.bind] using e
    exact e' ▸ inSequence_of h3 g2
  refine ⟨W, ⟨_, rfl⟩, stacked_secondary, h, fun h' => ?_, by decide +kernel⟩
  exact absurd (C51_order_unique _ W _ _ h h') (by decide)

end Props
end Lumberjack
