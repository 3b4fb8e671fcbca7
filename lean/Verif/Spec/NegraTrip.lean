import Verif.Spec.Negra

/-!
# Specification vocabulary for the NEGRA round trip
-/

namespace Lumberjack
namespace Negra

/-- A text that can stand in a column: not empty and without whitespace. -/
def Field (s : Str) : Prop := s ≠ [] ∧ ∀ c ∈ s, isWs c = false

/-- No features at all. -/
def NoFeatures (f : Option Features) : Prop := f.getD Features.empty = Features.empty

/-- No features, or just the one under the given key. -/
def OnlyFeature (f : Option Features) (k : Str) (P : Str → Prop) : Prop :=
  NoFeatures f ∨ ∃ v, f = some ⟨[(k, some v)]⟩ ∧ P v

/-- A terminal the format can hold: the only feature is `morph`, and `--` is not a lemma or the value of the
feature. -/
structure ExportTerm (x : Terminal) : Prop where
  form : Field x.form
  comment : x.form.head? ≠ some '#'
  pos : Field x.pos
  lem : ∀ l, x.lem = some l → Field l ∧ l ≠ "--".toList
  features : OnlyFeature x.features "morph".toList fun v => Field v ∧ v ≠ "--".toList

/-- A nonterminal the format can hold: the only feature is `node_annotation`, and neither it nor the label
contains `=`. -/
structure ExportNt (x : NonTerminal) : Prop where
  label : ∀ c ∈ x.label, isWs c = false ∧ c ≠ '='
  features : OnlyFeature x.features "node_annotation".toList fun a => ∀ c ∈ a, isWs c = false ∧ c ≠ '='
  something : x.label ≠ [] ∨ ¬ NoFeatures x.features

/-- An edge the format can hold. -/
def ExportEdge : Edge → Prop
  | .primary l => ∀ s, l = some s → Field s ∧ s ≠ "--".toList
  | .secondary l => ∃ s, l = some s ∧ Field s ∧ s.head? ≠ some '%'

/-- A tree the format can hold. Nothing is said about the label and the features of its root here. -/
structure Exportable (t : Tree) : Prop where
  wf : t.WF
  root : t.IsNt t.root
  terms : ∀ n x, t.graph.node? n = some (.term x) → ExportTerm x
  nts : ∀ n x, n ≠ t.root → t.graph.node? n = some (.nt x) → ExportNt x
  edges : ∀ e ∈ t.graph.edges, ExportEdge e.w
  sources : ∀ e ∈ t.graph.edges, e.w.isPrimary = false → t.IsNt e.src
  /-- the numbers of the nonterminals, from 500 on, fit into 64 bits -/
  size : t.nonterminals.length + 499 ≤ 2 ^ 64

/-- The number and the metadata the tree is written with: those of the features of the root, or the counter of
the writer if there is no number. -/
structure Head (t : Tree) (counter id : Nat) (info : Option Str) : Prop where
  number : (featOf (rootFeatures t) "sentence_id".toList).getD (Tree.natToStr counter) = Tree.natToStr id
  fits : id < 2 ^ 64
  metadata : featOf (rootFeatures t) "metadata".toList = info
  clean : ∀ m, info = some m → m ≠ [] ∧ trim m = m ∧ '\n' ∉ m

/-- `t'` is `t` up to the identity `φ` of nodes, the root, the second and further secondary parents of a node
and the secondary parents of the root. The root is labelled `VROOT` and has the number and the metadata of
the sentence as features. -/
structure Copy (id : Nat) (info : Option Str) (t t' : Tree) (φ : Nat → Nat) : Prop where
  wf : t'.WF
  root : t'.root = φ t.root
  root_node : ∃ x, t.graph.node? t.root = some (.nt x) ∧
    t'.graph.node? t'.root = some (.nt ⟨vroot, some (headFeatures id info), x.span⟩)
  inj : ∀ n m, t.Live n → t.Live m → φ n = φ m → n = m
  onto : ∀ n', t'.Live n' → ∃ n, t.Live n ∧ φ n = n'
  terms : ∀ n x, t.graph.node? n = some (.term x) → ∃ f, t'.graph.node? (φ n) = some (.term { x with features := f }) ∧
    Forest.FeatSame x.features f
  nts : ∀ n x, n ≠ t.root → t.graph.node? n = some (.nt x) →
    ∃ f, t'.graph.node? (φ n) = some (.nt { x with features := f }) ∧ Forest.FeatSame x.features f
  primary : ∀ p n l, t.Live p → t.Live n →
    ((∃ e ∈ t.graph.edges, e.src = p ∧ e.tgt = n ∧ e.w = .primary l) ↔
      ∃ e ∈ t'.graph.edges, e.src = φ p ∧ e.tgt = φ n ∧ e.w = .primary l)
  sec_from : ∀ e' ∈ t'.graph.edges, e'.w.isPrimary = false →
    ∃ e ∈ t.graph.edges, t.secondaryParent e.tgt = some (e.src, e.id) ∧ φ e.src = e'.src ∧ φ e.tgt = e'.tgt ∧ e.w = e'.w
  sec_to : ∀ e ∈ t.graph.edges, e.w.isPrimary = false → e.tgt ≠ t.root →
    ∃ e' ∈ t'.graph.edges, e'.w.isPrimary = false ∧ e'.tgt = φ e.tgt
  sec_one : ∀ e ∈ t'.graph.edges, ∀ e' ∈ t'.graph.edges, e.w.isPrimary = false → e'.w.isPrimary = false →
    e.tgt = e'.tgt → e = e'
  /-- without features there is no empty set of features -/
  tidy : ∀ n nd, t'.graph.node? n = some nd → nd.features ≠ some Features.empty
  /-- the node indices of the words increase along the sentence -/
  order : ∀ n m i j, t'.TermAt n i → t'.TermAt m j → (n < m ↔ i < j)

/-- The root is labelled `VROOT`, and its features are the number of the sentence and possibly metadata. -/
def SameRoot (t : Tree) (id : Nat) (info : Option Str) : Prop :=
  ∃ x, t.graph.node? t.root = some (.nt x) ∧ x.label = "VROOT".toList ∧
    x.features.getD Features.empty = headFeatures id info

end Negra
end Lumberjack
