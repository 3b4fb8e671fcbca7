import Verif.Proofs.NegraForest
import Verif.Props.NegraOrder

/-!
# The NEGRA text of an ordered tree (C51)
-/

namespace Lumberjack
namespace Props

open Lumberjack.Tree Negra

/-- C51: the text written for a tree without secondary edges is a function of the ordered tree: header, the words from left
to right, the phrases by their numbers, footer. -/
theorem C51_text (t : Tree) (W : t.WF) (hr : t.IsNt t.root) (hp : ∀ r ∈ t.graph.edges, r.w.isPrimary = true) (F : Forest)
    (hF : t.Is F) (counter : Nat) :
    writeTree counter t = .ok (F.exportText counter,
      if (featOf F.topFeatures "sentence_id".toList).isSome then counter else counter + 1) :=
  writeTree_export W hr hp hF counter

/-- C51: trees that differ only in the indices of their nodes and edges have the same text. -/
theorem C51_text_same (t u : Tree) (W : t.WF) (W' : u.WF) (hr : t.IsNt t.root) (hr' : u.IsNt u.root)
    (hp : ∀ r ∈ t.graph.edges, r.w.isPrimary = true) (hp' : ∀ r ∈ u.graph.edges, r.w.isPrimary = true) (F : Forest)
    (hF : t.Is F) (hF' : u.Is F) (counter : Nat) : writeTree counter t = writeTree counter u := by
  rw [C51_text t W hr hp F hF, C51_text u W' hr' hp' F hF']

/-- The ordered tree of `stacked`. -/
def stackedForest : Forest :=
  let w (s p : String) (i : Nat) : Terminal := .new s.toList p.toList i
  let n (l : String) (s : Span) : NonTerminal := .new l.toList s
  .node none (n "ROOT" ⟨0, 4, none⟩)
    (.node none (n "XP" ⟨0, 3, some {1}⟩)
      (.node none (n "NP" ⟨0, 3, some {1}⟩) (.leaf none (w "a" "N" 0) (.leaf none (w "c" "N" 2) .nil)) .nil)
      (.node none (n "Y" ⟨1, 2, none⟩) (.leaf none (w "b" "V" 1) .nil) (.leaf none (w "d" "W" 3) .nil))) .nil

theorem stacked_is : stacked.Is stackedForest := by
  have hc : ∀ a c, stacked.IsChild a c ↔
      a = 7 ∧ c = 3 ∨ a = 7 ∧ c = 6 ∨ a = 7 ∧ c = 5 ∨ a = 6 ∧ c = 1 ∨ a = 5 ∧ c = 4 ∨ a = 4 ∧ c = 2 ∨ a = 4 ∧ c = 0 := by
    intro a c
    simp only [Tree.IsChild, Graph.IsChild, stacked, Examples.pe, Edge.isPrimary, List.mem_cons, List.not_mem_nil, or_false,
      exists_eq_or_imp, exists_eq_left, and_true]
    omega
  have kids : ∀ a ks, (∀ c, c ∈ ks ↔ stacked.IsChild a c) →
      (ks.Pairwise fun a b => stacked.startOf a < stacked.startOf b) → stacked.Kids a ks := fun _ _ h h' => ⟨h, h'⟩
  refine ⟨7, [], [5, 6, 3], rfl, rfl, rfl, kids _ _ (fun c => ?_) (by decide), ?_, rfl⟩
  · simp [hc]; omega
  refine ⟨5, [6, 3], [4], rfl, rfl, rfl, kids _ _ (fun c => ?_) (by decide), ?_, ?_⟩
  · simp [hc]
  · refine ⟨4, [], [0, 2], rfl, rfl, rfl, kids _ _ (fun c => ?_) (by decide), ?_, rfl⟩
    · simp [hc]; omega
    · exact ⟨0, [2], rfl, rfl, rfl, 2, [], rfl, rfl, rfl, rfl⟩
  refine ⟨6, [3], [1], rfl, rfl, rfl, kids _ _ (fun c => ?_) (by decide), ?_, ?_⟩
  · simp [hc]
  · exact ⟨1, [], rfl, rfl, rfl, rfl⟩
  · exact ⟨3, [], rfl, rfl, rfl, rfl⟩

/-- The hypotheses are met by `stacked`; its phrases have the marks below, those of `XP` and `NP` differing in depth only. -/
example : stacked.WF ∧ stacked.IsNt stacked.root ∧ (∀ r ∈ stacked.graph.edges, r.w.isPrimary = true) ∧ stacked.Is stackedForest ∧
    stackedForest.marks 0 = [(1, 0), (0, 1), (0, 2), (1, 1)] ∧
    [(1, 0), (0, 1), (0, 2), (1, 1)].map stackedForest.numberOf = [0, 501, 500, 502] ∧
    stackedForest.exportText 1 = unlines (List.map String.toList
      ["#BOS 1",
       "a                               --                              N               --                      --              500",
       "b                               --                              V               --                      --              502",
       "c                               --                              N               --                      --              500",
       "d                               --                              W               --                      --              0",
       "#500                            --                              NP              --                      --              501",
       "#501                            --                              XP              --                      --              0",
       "#502                            --                              Y               --                      --              0",
       "#EOS 1", ""]) :=
  ⟨stacked_wf, ⟨_, rfl⟩, by decide, stacked_is, by decide +kernel, by decide +kernel, by decide +kernel⟩

end Props
end Lumberjack
