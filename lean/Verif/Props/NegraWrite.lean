import Verif.Proofs.NegraWrite
import Verif.Proofs.Check
import Verif.Spec.Examples

/-!
# Writing the NEGRA format (C51)
-/

namespace Lumberjack
namespace Props

open Lumberjack.Tree Negra

/-- C51: what is written for a tree with a nonterminal root whose secondary edges start at nonterminals.
After the header comes one line per terminal from left to right, then one line per nonterminal other
than the root, children before parents, then the footer and an empty line.  The columns of the lines
are those of the node, its parent being named by its number: 0 for the root, 500 and upwards for the
other nonterminals in the order of their lines.  A tree without sentence id gets the counter as id, and
only then the counter moves. -/
theorem C51_written (t : Tree) (W : t.WF) (hr : t.IsNt t.root)
    (hs : ∀ r ∈ t.graph.edges, r.w.isPrimary = false → t.IsNt r.src) (counter : Nat) :
    ∃ ns nts T N tl nl, Leaves t ns ∧ BottomUp t nts ∧
      List.Forall₂ (IsTermRow t (num t nts)) ns T ∧ List.Forall₂ (IsNtRow t (num t nts)) nts N ∧
      List.Forall₂ (fun l r => Columns l (TermRow.columns r)) tl T ∧
      List.Forall₂ (fun l r => Columns l (NtRow.columns r)) nl N ∧
      writeTree counter t = .ok
        (unlines (header ((featOf (rootFeatures t) "sentence_id".toList).getD (natToStr counter))
            (featOf (rootFeatures t) "metadata".toList) ::
          (tl ++ nl ++ [footer ((featOf (rootFeatures t) "sentence_id".toList).getD (natToStr counter)), []])),
         if (featOf (rootFeatures t) "sentence_id".toList).isSome then counter else counter + 1) :=
  writeTree_spec W hr hs counter

/-- C51: the lines are laid out in columns: each entry but the last of a line is filled up with spaces to the
width of its column in bytes, and followed by one space if it is too long for that. -/
theorem C51_layout (t : Tree) (W : t.WF) (hr : t.IsNt t.root)
    (hs : ∀ r ∈ t.graph.edges, r.w.isPrimary = false → t.IsNt r.src) (counter : Nat) :
    ∃ ns nts T N tl nl, Leaves t ns ∧ BottomUp t nts ∧
      List.Forall₂ (IsTermRow t (num t nts)) ns T ∧ List.Forall₂ (IsNtRow t (num t nts)) nts N ∧
      List.Forall₂ (fun l r => l = aligned widths (TermRow.columns r)) tl T ∧
      List.Forall₂ (fun l r => l = aligned widths (NtRow.columns r)) nl N ∧
      writeTree counter t = .ok
        (unlines (header ((featOf (rootFeatures t) "sentence_id".toList).getD (natToStr counter))
            (featOf (rootFeatures t) "metadata".toList) ::
          (tl ++ nl ++ [footer ((featOf (rootFeatures t) "sentence_id".toList).getD (natToStr counter)), []])),
         if (featOf (rootFeatures t) "sentence_id".toList).isSome then counter else counter + 1) :=
  writeTree_layout W hr hs counter

/-- A word with letters of two bytes. -/
example : aligned widths ["Übermut".toList, "--".toList, "NN".toList] =
    "Übermut                        --                              NN".toList := by decide +kernel

/-- C51: the numbers are distinct, from 500 upwards, and smaller than the parent's unless that is the
root. -/
theorem C51_numbers (t : Tree) (nts : List Nat) (B : BottomUp t nts) :
    (∀ a b, t.IsNt a → t.IsNt b → num t nts a = num t nts b → a = b) ∧ num t nts t.root = 0 ∧
    (∀ a, t.IsNt a → a ≠ t.root → 500 ≤ num t nts a ∧ num t nts a < 500 + nts.length) ∧
    ∀ a b, t.IsNt a → a ≠ t.root → t.IsNt b → b ≠ t.root → t.IsChild a b → num t nts b < num t nts a := by
  have hidx : ∀ a, t.IsNt a → a ≠ t.root → nts[nts.idxOf a]? = some a := by
    intro a h1 h2
    have hm := (B.mem a).2 ⟨h1, h2⟩
    rw [List.getElem?_eq_getElem (List.idxOf_lt_length_of_mem hm), List.getElem_idxOf]
  refine ⟨fun a b ha hb h => ?_, by simp [num], fun a h1 h2 => ?_, fun a b h1 h2 h3 h4 h => ?_⟩
  · unfold num at h
    split at h <;> split at h
    · simp_all
    · omega
    · omega
    · rename_i h1 h2
      have e : nts.idxOf a = nts.idxOf b := by omega
      have h3 := hidx a ha h1
      rw [e, hidx b hb h2, Option.some.injEq] at h3
      exact h3.symm
  · have := List.idxOf_lt_length_of_mem ((B.mem a).2 ⟨h1, h2⟩)
    simp only [num, if_neg h2]
    omega
  · have := B.order _ _ a b (hidx a h1 h2) (hidx b h3 h4) h
    simp only [num, if_neg h2, if_neg h4]
    omega

/-- C51: a list of trees is written one after the other; the counter counts the trees before that have no
sentence id. -/
theorem C51_sequence (ts : List Tree) (counter : Nat)
    (H : ∀ t ∈ ts, t.WF ∧ t.IsNt t.root ∧ ∀ r ∈ t.graph.edges, r.w.isPrimary = false → t.IsNt r.src) :
    ∃ texts : List Str, writeTrees counter ts = .ok texts.flatten ∧ texts.length = ts.length ∧
      ∀ (i : Nat) t s, ts[i]? = some t → texts[i]? = some s →
        ∃ c', writeTree (counter + ((ts.take i).filter
          fun u => (featOf (rootFeatures u) "sentence_id".toList).isNone).length) t = .ok (s, c') := by
  induction ts generalizing counter with
  | nil => exact ⟨[], rfl, rfl, by simp⟩
  | cons t ts ih =>
    obtain ⟨W, hr, hs⟩ := H t (by simp)
    obtain ⟨_, _, _, _, _, _, _, _, _, _, _, _, h⟩ := writeTree_spec W hr hs counter
    generalize hc : (if (featOf (rootFeatures t) sentenceIdKey).isSome then counter else counter + 1) = c at h
    generalize hx : unlines _ = s at h
    obtain ⟨texts, h1, h2, h3⟩ := ih c (fun u hu => H u (by simp [hu]))
    refine ⟨s :: texts, by simp [writeTrees, h, h1], by simp [h2], fun i u v hu hv => ?_⟩
    cases i with
    | zero =>
      simp only [List.getElem?_cons_zero, Option.some.injEq] at hu hv
      subst hu hv
      exact ⟨c, by simpa using h⟩
    | succ i =>
      simp only [List.getElem?_cons_succ] at hu hv
      obtain ⟨c', hc'⟩ := h3 i u v hu hv
      refine ⟨c', ?_⟩
      rw [← hc', List.take_succ_cons, List.filter_cons, ← hc]
      congr 1
      show _ = (if (featOf (rootFeatures t) "sentence_id".toList).isSome then _ else _) + _
      cases featOf (rootFeatures t) "sentence_id".toList
      · simp only [Option.isNone_none, if_true, List.length_cons, Option.isSome_none, Bool.false_eq_true,
          if_false]
        omega
      · simp

/-- C51: a tree that is just a terminal cannot be written, the writer panics. -/
theorem C51_terminal_root (t : Tree) (W : t.WF) (hr : t.IsTerm t.root) (counter : Nat) :
    writeTree counter t = .panic := by
  have hperm := sortIndices_perm (t := t) t.terminals
  have hl : ∀ n, n ∈ t.sortIndices t.terminals ↔ t.IsTerm n := by
    intro n; rw [hperm.mem_iff]; exact mem_terminals
  obtain ⟨s, h1, _⟩ := number_ok W.graph W.shape hl
  obtain ⟨x, hx⟩ := hr
  have hlist : t.sortIndices t.terminals = [t.root] := by
    have hall : ∀ n ∈ t.sortIndices t.terminals, n = t.root := fun n hn => by
      obtain ⟨y, hy⟩ := (hl n).1 hn
      exact W.shape.dom_term ⟨x, hx⟩ (W.shape.reach n ⟨_, hy⟩)
    have hnd : (t.sortIndices t.terminals).Nodup := hperm.nodup_iff.2 terminals_nodup
    have hm := (hl t.root).2 ⟨x, hx⟩
    revert hall hnd hm
    generalize t.sortIndices t.terminals = l
    intro hall hnd hm
    match l with
    | [] => simp at hm
    | [a] => rw [hall a (by simp)]
    | a :: b :: l =>
      have h1 := hall a (by simp)
      have h2 := hall b (by simp)
      simp [h1, h2] at hnd
  have hp : t.parent t.root = none := parent_none.2 W.shape.root_top
  rw [hlist] at h1
  have hlines : ∀ ids, terminalLines t ids [t.root] = .panic := by
    intro ids
    simp [terminalLines, node_eq hx, Node.terminal, parentEdgeRep, hp]
  unfold writeTree sentenceId
  simp only [node_eq hx, Res.ok_bind, hlist, h1]
  cases (Node.term x).featVal sentenceIdKey <;> simp [hlines]

/-- The hypotheses are met by a discontinuous tree; its text. -/
example : Examples.disc.WF ∧ Examples.disc.IsNt Examples.disc.root ∧
    (∀ r ∈ Examples.disc.graph.edges, r.w.isPrimary = false → Examples.disc.IsNt r.src) ∧
    (∃ nts, BottomUp Examples.disc nts) ∧ writeTree 7 Examples.disc = .ok (unlines (List.map String.toList
      ["#BOS 7",
       "a                               --                              X               --                      --              500",
       "b                               --                              Y               --                      HD              501",
       "c                               --                              Z               --                      --              500",
       "d                               --                              W               --                      --              0",
       "#500                            --                              A               --                      --              0",
       "#501                            --                              B               --                      --              0",
       "#EOS 7", ""]), 8) := by
  have W : Examples.disc.WF := wf_of_check (by decide +kernel)
  have hr : Examples.disc.IsNt Examples.disc.root := ⟨_, rfl⟩
  have hs : ∀ r ∈ Examples.disc.graph.edges, r.w.isPrimary = false → Examples.disc.IsNt r.src := by
    have : ∀ r ∈ Examples.disc.graph.edges, r.w.isPrimary = true := by decide
    intro r h1 h2
    rw [this r h1] at h2
    exact absurd h2 (by decide)
  obtain ⟨_, nts, _, _, _, _, _, h, _⟩ := C51_written _ W hr hs 0
  exact ⟨W, hr, hs, ⟨nts, h⟩, by decide +kernel⟩

/-- C51: a secondary edge that starts at a terminal makes the writer panic. -/
theorem C51_secondary_terminal : ∃ t : Tree, t.WF ∧ t.IsNt t.root ∧ writeTree 0 t = .panic :=
  ⟨{ Examples.disc with graph := { Examples.disc.graph with
      edges := ⟨6, 0, 3, .secondary none⟩ :: Examples.disc.graph.edges, edgeSlots := 7 } },
    wf_of_check (by decide +kernel), ⟨_, rfl⟩, by decide +kernel⟩

/-- A tree that is just a terminal. -/
example : ∃ t : Tree, t.WF ∧ t.IsTerm t.root :=
  ⟨⟨⟨[Examples.tm "a" "X" 0], [], [], 0, []⟩, 1, 0, 0⟩, wf_of_check (by decide +kernel), _, rfl⟩

end Props
end Lumberjack
