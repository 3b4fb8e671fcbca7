import Verif.Spec.ConvertRun

/-!
# The phrases of a converted tree
-/

namespace Lumberjack

namespace Forest

/-- Label and features of the inner nodes, from the top and from left to right. -/
def phrases : Forest → List (Str × Option Features)
  | nil => []
  | leaf _ _ r => r.phrases
  | node _ x k r => (x.label, x.features) :: (k.phrases ++ r.phrases)

end Forest

namespace Tree

/-- `n` is a nonterminal with label `l` and features `fs`. -/
def Phrase (t : Tree) (n : Nat) (l : Str) (fs : Option Features) : Prop :=
  ∃ x, t.graph.node? n = some (.nt x) ∧ x.label = l ∧ x.features = fs

/-- The word `m` has the part of speech `q`: its own, or with `tags` the one at its position. -/
def HasTag (tags : Option (List Str)) (t : Tree) (m : Nat) (q : Str) : Prop :=
  ∃ x, t.graph.node? m = some (.term x) ∧ q = match tags with
    | some l => l[x.span.start]?.getD []
    | none => x.pos

end Tree

namespace Convert

open Lumberjack.Tree

/-- Which phrases of `t` are in `t'`, and which others there are. -/
structure PhrasesKept (o : Options) (tags : Option (List Str)) (t t' : Tree) : Prop where
  /-- A phrase of `t'` is one of `t`, at the same place, with the same label and features; or a node without features
  above words only, with the label of inserted nodes. -/
  invented : ∀ n l fs, t'.Phrase n l fs → t.Phrase n l fs ∨
    (o.insertionSet ≠ none ∧ l = o.insertionLabel ∧ fs = none ∧ ∀ c, t'.IsChild n c → t'.IsTerm c)
  /-- With `--filter` the phrases other than the root have labels in the set, but for inserted ones. -/
  filtered : ∀ s, o.filterSet = some s → ∀ n l fs, t'.Phrase n l fs →
    n = t'.root ∨ Matches s l ∨ (o.insertionSet ≠ none ∧ l = o.insertionLabel)
  /-- A phrase of `t` is in `t'`, with the same label and features, unless it is a `DUMMY` node to be removed, its label
  is not in the filter set, or all words below it are moved to the root. -/
  kept : ∀ n l fs, t.Phrase n l fs → ¬ (o.removeDummies = true ∧ l = "DUMMY".toList) →
    (∀ s, o.filterSet = some s → n = t.root ∨ Matches s l) →
    (∀ p, o.reattachLabel = some p → n = t.root ∨ ∃ m q, t.Dom n m ∧ t.HasTag tags m q ∧ ¬ p <+: q) →
    t'.Phrase n l fs
  /-- The root stays the root, unless it is a `DUMMY` node to be removed. -/
  root : ∀ l fs, t.Phrase t.root l fs → ¬ (o.removeDummies = true ∧ l = "DUMMY".toList) → t'.root = t.root

/-- What happens to words, edge labels and secondary edges. -/
structure RestKept (o : Options) (tags : Option (List Str)) (t t' : Tree) : Prop where
  /-- The words keep form, lemma and position; without `tags` they keep their part of speech, else they have the tag at
  their position. -/
  word : ∀ n y, t'.graph.node? n = some (.term y) → ∃ x, t.graph.node? n = some (.term x) ∧ y.form = x.form ∧ y.lem = x.lem ∧
    y.span = x.span ∧ (y.pos = match tags with
      | some l => l[x.span.start]?.getD []
      | none => x.pos) ∧
    (o.idSet = none → o.parentFeature = none → y.features = x.features) ∧
    ∀ key, (o.idSet ≠ none → key ≠ o.idFeatureName) → o.parentFeature ≠ some key →
      (y.features.getD Features.empty).getVal key = (x.features.getD Features.empty).getVal key
  /-- Edge labels are kept or dropped. -/
  edge : ∀ n l, t'.inLabel n = some l → t.inLabel n = some l
  /-- There are no further secondary edges, unless the moves of projectivization are recorded. -/
  secondary : (o.projectivize = true → o.secEdges = true → NoGaps t) →
    ∀ e ∈ t'.graph.edges, e.w.isPrimary = false → e ∈ t.graph.edges

/-- A label and features that an inserted node can have. -/
def Insertable (o : Options) (p : Str × Option Features) : Prop := o.insertionSet ≠ none ∧ p = (o.insertionLabel, none)

/-- No step but `--reattach` can remove a phrase with this label. -/
def Lasting (o : Options) (p : Str × Option Features) : Prop :=
  ¬ (o.removeDummies = true ∧ p.1 = "DUMMY".toList) ∧ ∀ s, o.filterSet = some s → Matches s p.1

end Convert
end Lumberjack
