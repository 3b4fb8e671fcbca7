import Verif.Spec.RewriteGather

/-!
# Editing a tree with gaps as rewriting

Siblings stand in the order of their first words. If a node with a gap is replaced by its children, some of these may start
after the siblings that followed it. Words that are siblings next to each other need not be next to each other in the
sentence.
-/

namespace Lumberjack
namespace Forest

/-- The position of the first word of the first tree. -/
def firstStart : Forest → Nat
  | nil => 0
  | leaf _ x _ => x.span.start
  | node _ x _ _ => x.span.start

/-- The tree `one` before the first tree that starts after it. -/
def insertTree (one : Forest) : Forest → Forest
  | nil => one
  | leaf e y r =>
    if one.firstStart < y.span.start then one.append (leaf e y r) else leaf e y (insertTree one r)
  | node e y k r =>
    if one.firstStart < y.span.start then one.append (node e y k r) else node e y k (insertTree one r)

/-- All siblings sorted by their first words. -/
def inOrder : Forest → Forest
  | nil => nil
  | leaf e x r => insertTree (leaf e x nil) r.inOrder
  | node e x k r => insertTree (node e x k.inOrder nil) r.inOrder

/-- Every longest sequence of leaves among the topmost trees whose positions follow each other is put below a node labelled
`l`. The leaves other than the first lose the labels they are attached by. `run` are the leaves of the sequence so far. -/
def bundleRuns (l : Str) (run : Forest) : Forest → Forest
  | nil => close l run nil
  | leaf e x r =>
    if run = nil then bundleRuns l (leaf e x nil) r
    else if x.span.start = run.runSpan.stop then bundleRuns l (run.append (leaf none x nil)) r
    else close l run (bundleRuns l (leaf e x nil) r)
  | node e x k r => close l run (node e x k (bundleRuns l nil r))

/-- The children of each nonterminal with `P` are bundled. -/
def groupedRuns (P : NonTerminal → Bool) (l : Str) : Forest → Forest
  | nil => nil
  | leaf e x r => leaf e x (r.groupedRuns P l)
  | node e x k r =>
    node e x (if P x then bundleRuns l nil (k.groupedRuns P l) else k.groupedRuns P l) (r.groupedRuns P l)

/-- For every leaf its position and the closest node with `P` above it. The nodes are counted from `next` on, each before
those below it; `own` is the closest node above the whole forest. The result also has the next count. -/
def owners (P : NonTerminal → Bool) : Forest → Nat → Nat → List (Nat × Nat) × Nat
  | nil, _, next => ([], next)
  | leaf _ x r, own, next =>
    let (l, n) := r.owners P own next
    ((x.span.start, own) :: l, n)
  | node _ x k r, own, next =>
    let (l, n) := k.owners P (if P x then next else own) (next + 1)
    let (l', n') := r.owners P own n
    (l ++ l', n')

/-- How many different values `own` has before it first takes its value at `i`. -/
def rank (own : Nat → Option Nat) (i : Nat) : Nat :=
  ((Finset.range (((List.range i).find? fun j => own j = own i).getD i)).image own).card

/-- Every leaf gets a number as feature `name`: leaves with the same closest node with `P` above them, or none, share a
number, and the numbers count up along the sentence. -/
def numberedBy (name : Str) (P : NonTerminal → Bool) (F : Forest) : Forest :=
  F.mapLeaves fun x =>
    Tree.withFeature name (Nat.toDigits 10 (rank (fun i => (F.owners P 0 1).1.lookup i) x.span.start)) x

/-- The words of a list from left to right. -/
def leftToRight (l : List Terminal) : List Terminal := l.insertionSort fun a b => a.span.start ≤ b.span.start

/-- All leaves with `P` are taken out, and all nodes with nothing left below them. -/
def prunedBy (P : Terminal → Bool) : Forest → Forest
  | nil => nil
  | leaf e x r => if P x then r.prunedBy P else leaf e x (r.prunedBy P)
  | node e x k r =>
    if k.prunedBy P = nil then r.prunedBy P
    else node e { x with span := wordSpan (leftToRight (k.prunedBy P).leaves) } (k.prunedBy P) (r.prunedBy P)

/-- All leaves with `P` are attached to the topmost node, without labels, and siblings sorted. -/
def gatheredBy (P : Terminal → Bool) : Forest → Forest
  | node e x k r => (node e x ((k.leaves.filter P).foldr (leaf none) (k.prunedBy P)) r).inOrder
  | f => f

/-- The steps of the conversion tool other than `--projectivize`, in its order, for any tree. -/
def editedBy (o : Convert.Options) (tags : Option (List Str)) (F : Forest) : Forest :=
  let F := if o.removeDummies then F.undummied.inOrder else F
  let F := given tags retagged F
  let F := given o.reattachLabel (fun p => gatheredBy fun x => decide (p <+: x.pos)) F
  let F := given o.idSet (fun s => numberedBy o.idFeatureName fun x => s.matches x.label) F
  let F := given o.filterSet (fun s F => (F.filtered fun x => !s.matches x.label).inOrder) F
  let F := given o.insertionSet (fun s => groupedRuns (fun x => !s.matches x.label) o.insertionLabel) F
  given o.parentFeature parented F

/-- What is written for a tree: the words from left to right in CoNLL-X, and the same as for a tree without gaps in the other
formats. -/
def outputBy (F : Forest) : Convert.OutFormat → Option Convert.Written
  | .conllx => some (.sentence ((leftToRight F.leaves).map Conllx.tokenOf))
  | out => F.output out

end Forest
end Lumberjack
