import Verif.Spec.Through
import Verif.Spec.NegraTrip

/-!
# Doing the steps of a conversion in two runs
-/

namespace Lumberjack
namespace Convert

/-- Of the steps (1) removing dummies, (2) projectivizing, (3) part-of-speech tags, (4) moving words to the root,
(5) numbers, (6) filtering, (7) inserting, (8) parent labels, only the first `k`, with another output format. -/
def firstSteps (k : Nat) (out : OutFormat) (o : Options) : Options :=
  { o with
    removeDummies := decide (1 ≤ k) && o.removeDummies
    projectivize := decide (2 ≤ k) && o.projectivize
    reattachLabel := if 4 ≤ k then o.reattachLabel else none
    idSet := if 5 ≤ k then o.idSet else none
    filterSet := if 6 ≤ k then o.filterSet else none
    insertionSet := if 7 ≤ k then o.insertionSet else none
    parentFeature := if 8 ≤ k then o.parentFeature else none
    out := out }

/-- Only the steps after the first `k`. -/
def lastSteps (k : Nat) (o : Options) : Options :=
  { o with
    removeDummies := !decide (1 ≤ k) && o.removeDummies
    projectivize := !decide (2 ≤ k) && o.projectivize
    reattachLabel := if 4 ≤ k then none else o.reattachLabel
    idSet := if 5 ≤ k then none else o.idSet
    filterSet := if 6 ≤ k then none else o.filterSet
    insertionSet := if 7 ≤ k then none else o.insertionSet
    parentFeature := if 8 ≤ k then none else o.parentFeature }

/-- Tags are used by the first `k` steps if the third step is among them. -/
def firstPos {α : Type} (k : Nat) (pos : Option α) : Option α := if 3 ≤ k then pos else none

/-- Otherwise they are used by the others. -/
def lastPos {α : Type} (k : Nat) (pos : Option α) : Option α := if 3 ≤ k then none else pos

/-- There is a part-of-speech sentence of the right length for each tree. -/
def EachTagged (pos : Option (List PosItem)) (ts : List Tree) : Prop :=
  ∀ ps, pos = some ps → ∀ (i : Nat) (t : Tree), ts[i]? = some t → ∃ l, ps[i]? = some (.ok l) ∧ l.length = t.nTerminals

/-- A tree for which all steps in `o` give trees that the bracketed format holds: the tree has no gaps, or is
projectivized without recording the moves; it has nothing else that the format does not hold; and the steps add nothing
of that kind. -/
structure Held (g : Ptb.Format) (o : Options) (tags : Option (List Str)) (t : Tree) : Prop where
  gaps : NoGaps t ∨ (o.projectivize = true ∧ o.secEdges = false)
  primary : t.NoSecondary
  writable : t.Writable g
  annotated : t.OnlyAnnotated
  bare : g ≠ .tueba → (∀ n, t.inLabel n = none) ∧ ∀ n x, t.graph.node? n = some (.nt x) → x.features = none
  steps : o.reattachLabel = none ∧ o.idSet = none ∧ o.parentFeature = none
  label : o.insertionSet ≠ none → Bracketed.CleanLabel g o.insertionLabel
  tags : ∀ l, tags = some l → l.length = t.nTerminals ∧
    ∀ s ∈ l, Bracketed.CleanLabel g s ∧ Bracketed.escape s = s

/-- The options and tags of a first run add nothing that the bracketed format does not hold. -/
structure AddsNothing (g : Ptb.Format) (o : Options) (pos : Option (List PosItem)) : Prop where
  steps : o.reattachLabel = none ∧ o.idSet = none ∧ o.parentFeature = none
  label : o.insertionSet ≠ none → Bracketed.CleanLabel g o.insertionLabel
  tags : ∀ ps, pos = some ps → ∀ l, .ok l ∈ ps → ∀ s ∈ l, Bracketed.CleanLabel g s ∧ Bracketed.escape s = s

/-- A tree the NEGRA format holds with everything: it can be written, the root is labelled `VROOT` and has the number of
the sentence and possibly metadata as its features, no node has two secondary parents, the root has none, and there are
no empty sets of features. -/
structure NegraHeld (t : Tree) : Prop where
  exportable : Negra.Exportable t
  head : ∃ id info, Negra.SameRoot t id info ∧ ∀ counter, Negra.Head t counter id info
  one : t.OneSecondary
  top : ∀ e ∈ t.graph.edges, e.w.isPrimary = false → e.tgt ≠ t.root
  tidy : ∀ n nd, t.graph.node? n = some nd → nd.features ≠ some Features.empty

/-- The steps in `o` add nothing to `t` that the NEGRA format does not hold: no features of words and no record of moves;
tags and inserted label can be columns. -/
structure NegraSteps (o : Options) (tags : Option (List Str)) (t : Tree) : Prop where
  gaps : o.projectivize = true → o.secEdges = true → NoGaps t
  features : o.idSet = none ∧ o.parentFeature = none
  label : o.insertionSet ≠ none → o.insertionLabel ≠ [] ∧ ∀ c ∈ o.insertionLabel, Negra.isWs c = false ∧ c ≠ '='
  tags : ∀ l, tags = some l → l.length = t.nTerminals ∧ ∀ s ∈ l, Negra.Field s

end Convert
end Lumberjack
