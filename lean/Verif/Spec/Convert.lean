import Verif.Model.Convert
import Verif.Spec.Annotate
import Verif.Spec.Decode
import Verif.Spec.Filled
import Verif.Spec.Gather
import Verif.Spec.Runs

/-!
# What the conversion tool does with a tree

Each switch of the tool has a contract, a relation between the tree before and after; `Pipeline` is
their composition in the order of the tool.
-/

namespace Lumberjack

namespace Tree

/-- Node indices of terminals increase along the sentence. -/
def InOrder (t : Tree) : Prop := ∀ n m i j, t.TermAt n i → t.TermAt m j → (n < m ↔ i < j)

/-- Secondary edges start at nonterminals. -/
def SecondaryNt (t : Tree) : Prop := ∀ r ∈ t.graph.edges, r.w.isPrimary = false → t.IsNt r.src

/-- The sentence is the same: the terminals have the same indices, positions, forms and lemmas. -/
structure SameWords (t t' : Tree) : Prop where
  len : t'.nTerminals = t.nTerminals
  terms : ∀ n, t'.IsTerm n → t.IsTerm n
  kept : ∀ n x, t.graph.node? n = some (.term x) →
    ∃ y, t'.graph.node? n = some (.term y) ∧ y.form = x.form ∧ y.lem = x.lem ∧ y.span = x.span

end Tree

namespace Convert

open Lumberjack.Tree

/-- `q` is one of the labels of the set (or none of them, for a negative set). -/
def Matches : LabelSet → Str → Prop
  | .positive s, q => q ∈ s
  | .negative s, q => q ∉ s

/-- `--remove_dummies`: only `DUMMY` nodes are removed, and all of them but a branching root. -/
def DummiesRemoved (t t' : Tree) : Prop :=
  ∃ R, Removed t t' R ∧ (∀ n, R n → IsDummy t n) ∧
    ∀ n, IsDummy t' n → n = t'.root ∧ n = t.root ∧ ∃ c d, c ≠ d ∧ t'.IsChild n c ∧ t'.IsChild n d

/-- The label of the edge recording that a node attached with label `l` was moved. -/
def moveLabel : Option Str → Str
  | some l => "np_".toList ++ l
  | none => "np".toList

/-- `t'` is `t` with one secondary edge for every move: from the old parent to the moved node,
labelled after the edge it was attached by. -/
structure Recorded (log : List Move) (t t' : Tree) : Prop where
  wf : t'.WF
  node : ∀ n, t'.graph.node? n = t.graph.node? n
  root : t'.root = t.root
  nterm : t'.nTerminals = t.nTerminals
  edges : ∃ new : List EdgeRec, t'.graph.edges = new ++ t.graph.edges ∧
    new.reverse.map (fun r => (r.src, r.tgt, r.w)) =
      log.map fun m => (m.1, m.2.2, Edge.secondary (some (moveLabel m.2.1.label)))

/-- `--projectivize`, with `sec` for `--sec_edges`: a tree without gaps is left alone; otherwise
the gaps of the nodes are filled one after the other, which lowers nodes until there is no gap, and the moves are recorded
on demand. -/
def Projectivized (sec : Bool) (t t' : Tree) : Prop :=
  ((∀ n, t.Live n → t.Gapless n) ∧ t' = t) ∨
  ((∃ n, t.Live n ∧ ¬ t.Gapless n) ∧ ∃ log t1, (∃ l, PostOrder t [t.root] l ∧ FilledAll l t t1) ∧ Moves t log t1 ∧
    t1.WF ∧ (∀ n, t1.Live n → t1.Gapless n) ∧ (sec = true → Recorded log t1 t') ∧ (sec = false → t' = t1))

/-- `--pos`: the word at position `i` has the `i`-th tag. -/
def PosTagged (tags : List Str) (t t' : Tree) : Prop :=
  TermEdit t t' fun _ x => { x with pos := tags[x.span.start]?.getD [] }

/-- `--reattach`: the words whose part of speech starts with `p` hang below the root. -/
def PrefixGathered (p : Str) (t t' : Tree) : Prop :=
  Gathered t t.root (fun n => ∃ x, t.graph.node? n = some (.term x) ∧ p <+: x.pos) t'

/-- The root and the nodes with a label in the set. -/
def idNode (s : LabelSet) (t : Tree) (n : Nat) : Bool :=
  decide (t.root = n) || (t.graph.node? n).any fun nd => s.matches nd.label

/-- Numbers count up along the sentence: a number that no earlier word has is the number of different ones so far. -/
def CountsUp (t : Tree) (num : Nat → Nat) : Prop :=
  ∀ n i, t.TermAt n i → (∀ m j, t.TermAt m j → j < i → num m ≠ num n) →
    ∀ k, k < num n ↔ ∃ m j, t.TermAt m j ∧ j < i ∧ num m = k

/-- `--id_set`: every word gets a number as feature `name`; two words get the same number iff they
have the same closest ancestor among the root and the nodes labelled from the set.  The numbers count up along the
sentence. -/
def IdsProjected (name : Str) (s : LabelSet) (t t' : Tree) : Prop :=
  ∃ num : Nat → Nat, TermEdit t t' (fun n => withFeature name (Nat.toDigits 10 (num n))) ∧
    (∀ n m a b, t.IsTerm n → t.IsTerm m → t.Closest (idNode s) n a → t.Closest (idNode s) m b →
      (num n = num m ↔ a = b)) ∧ CountsUp t num

/-- `--filter`: the nonterminals other than the root with a label outside of the set are removed. -/
def Filtered (s : LabelSet) (t t' : Tree) : Prop :=
  t'.root = t.root ∧
    Removed t t' fun n => n ≠ t.root ∧ ∃ x, t.graph.node? n = some (.nt x) ∧ ¬ Matches s x.label

/-- `--insertion_set`: a node labelled `l` above each run of adjacent words attached to a node with a label
outside of the set. -/
def RunsInserted (s : LabelSet) (l : Str) (t t' : Tree) : Prop :=
  Inserted t (fun p c => (∃ x, t.graph.node? p = some (.nt x) ∧ ¬ Matches s x.label) ∧
    t.IsChild p c ∧ t.IsTerm c) (fun _ => l) t'

/-- `--parent`: every word gets the label of its parent as feature `name`. -/
def ParentTagged (name : Str) (t t' : Tree) : Prop :=
  ∃ val : Nat → Str, TermEdit t t' (fun n => withFeature name (val n)) ∧
    ∀ n p x, t.IsTerm n → t.IsChild p n → t.graph.node? p = some (.nt x) → val n = x.label

/-- A step that is only taken if its option `a` is given. -/
def Opt {α : Type} (a : Option α) (R : α → Tree → Tree → Prop) (t t' : Tree) : Prop :=
  match a with
  | some v => R v t t'
  | none => t' = t

/-- A step that is only taken if its switch `b` is on. -/
def Switch (b : Bool) (R : Tree → Tree → Prop) (t t' : Tree) : Prop :=
  (b = true → R t t') ∧ (b = false → t' = t)

/-- The steps of the tool in their order. -/
def Pipeline (o : Options) (tags : Option (List Str)) (t t' : Tree) : Prop :=
  ∃ t1 t2 t3 t4 t5 t6 t7 : Tree,
    Switch o.removeDummies DummiesRemoved t t1 ∧
    Switch o.projectivize (Projectivized o.secEdges) t1 t2 ∧
    Opt tags PosTagged t2 t3 ∧
    Opt o.reattachLabel PrefixGathered t3 t4 ∧
    Opt o.idSet (IdsProjected o.idFeatureName) t4 t5 ∧
    Opt o.filterSet Filtered t5 t6 ∧
    Opt o.insertionSet (fun s => RunsInserted s o.insertionLabel) t6 t7 ∧
    Opt o.parentFeature ParentTagged t7 t'

end Convert
end Lumberjack
