import Verif.Spec.Bracket
import Verif.Spec.Chains
import Verif.Spec.ConllxRead
import Verif.Spec.ConvertRun

/-!
# Editing as rewriting of ordered trees

What the editing steps do, as functions on the plain datatype of ordered labelled forests.
-/

namespace Lumberjack
namespace Forest

/-- The same trees, attached without labels. -/
def unlabelled : Forest → Forest
  | nil => nil
  | leaf _ x r => leaf none x r.unlabelled
  | node _ x k r => node none x k r.unlabelled

/-- All nonterminals with `P` are replaced by what is below them, which is attached without labels. -/
def without (P : NonTerminal → Bool) : Forest → Forest
  | nil => nil
  | leaf e x r => leaf e x (r.without P)
  | node e x k r =>
    if P x then (k.without P).unlabelled.append (r.without P) else node e x (k.without P) (r.without P)

/-- The same for the nodes below the topmost ones. -/
def filtered (P : NonTerminal → Bool) : Forest → Forest
  | nil => nil
  | leaf e x r => leaf e x (r.filtered P)
  | node e x k r => node e x (k.without P) (r.filtered P)

/-- The nodes without meaning. -/
def dummyNode (x : NonTerminal) : Bool := x.label = "DUMMY".toList

/-- All nodes labelled `DUMMY` are taken out, the topmost one only if one tree remains below it. -/
def undummied : Forest → Forest
  | node e x k nil =>
    if dummyNode x = true ∧ (k.without dummyNode).width = 1 then (k.without dummyNode).unlabelled
    else node e x (k.without dummyNode) nil
  | f => f

/-- The span from the first to the last leaf. -/
def runSpan (f : Forest) : Span :=
  ⟨(f.leaves.head?.map (·.span.start)).getD 0, (f.leaves.getLast?.map (·.span.stop)).getD 0, none⟩

/-- A node labelled `l` above the trees of `run`, if there are any, and `rest` after it. -/
def close (l : Str) : Forest → Forest → Forest
  | nil, rest => rest
  | run, rest => node none (NonTerminal.new l run.runSpan) run rest

/-- Every longest sequence of adjacent leaves among the topmost trees is put below a node labelled `l`. The leaves
other than the first lose the labels they are attached by. `run` are the leaves of the sequence so far. -/
def bundleFrom (l : Str) (run : Forest) : Forest → Forest
  | nil => close l run nil
  | leaf e x r => bundleFrom l (run.append (leaf (if run = nil then e else none) x nil)) r
  | node e x k r => close l run (node e x k (bundleFrom l nil r))

/-- The children of each nonterminal with `P` are bundled. -/
def grouped (P : NonTerminal → Bool) (l : Str) : Forest → Forest
  | nil => nil
  | leaf e x r => leaf e x (r.grouped P l)
  | node e x k r => node e x (if P x then bundleFrom l nil (k.grouped P l) else k.grouped P l) (r.grouped P l)

/-- Every leaf is changed by `h`. -/
def mapLeaves (h : Terminal → Terminal) : Forest → Forest
  | nil => nil
  | leaf e x r => leaf e (h x) (r.mapLeaves h)
  | node e x k r => node e x (k.mapLeaves h) (r.mapLeaves h)

/-- The word at position `i` has the `i`-th tag. -/
def retagged (tags : List Str) : Forest → Forest := mapLeaves fun x => { x with pos := tags[x.span.start]?.getD [] }

/-- Every leaf gets the label of the closest node with `P` above it as feature `name`, if there is one; `above` is the
label of the closest one above the whole forest. -/
def projected (name : Str) (P : NonTerminal → Bool) (above : Option Str) : Forest → Forest
  | nil => nil
  | leaf e x r => leaf e (match above with
    | some l => Tree.withFeature name l x
    | none => x) (r.projected name P above)
  | node e x k r => node e x (k.projected name P (if P x then some x.label else above)) (r.projected name P above)

/-- Every leaf below a node gets the label of this node as feature `name`. -/
def parented (name : Str) : Forest → Forest := projected name (fun _ => true) none

/-- Numbers for the leaves from left to right. Two leaves get the same number iff they have the same closest node with `P`
above them, or none; the numbers count up from `next`. `cur` is the number of earlier leaves whose closest node is that
above the whole forest. The result also has the values of `cur` and `next` afterwards. -/
def numbers (P : NonTerminal → Bool) : Forest → Option Nat → Nat → List Nat × Option Nat × Nat
  | nil, cur, next => ([], cur, next)
  | leaf _ _ r, some v, next =>
    let (l, c, n) := r.numbers P (some v) next
    (v :: l, c, n)
  | leaf _ _ r, none, next =>
    let (l, c, n) := r.numbers P (some next) (next + 1)
    (next :: l, c, n)
  | node _ x k r, cur, next =>
    let (l, c, n) := k.numbers P (if P x then none else cur) next
    let (l', c', n') := r.numbers P (if P x then cur else c) n
    (l ++ l', c', n')

/-- Every leaf gets its number as feature `name`. -/
def numbered (name : Str) (P : NonTerminal → Bool) (F : Forest) : Forest :=
  F.mapLeaves fun x => Tree.withFeature name (Nat.toDigits 10 ((F.numbers P none 0).1[x.span.start]?.getD 0)) x

/-- A step that is only taken if its option is given. -/
def given {α : Type} (a : Option α) (step : α → Forest → Forest) (F : Forest) : Forest :=
  match a with
  | some v => step v F
  | none => F

/-- The steps of the conversion tool other than `--reattach`, in its order. -/
def edited (o : Convert.Options) (tags : Option (List Str)) (F : Forest) : Forest :=
  let F := if o.removeDummies then F.undummied else F
  let F := given tags retagged F
  let F := given o.idSet (fun s => numbered o.idFeatureName fun x => s.matches x.label) F
  let F := given o.filterSet (fun s => filtered fun x => !s.matches x.label) F
  let F := given o.insertionSet (fun s => grouped (fun x => !s.matches x.label) o.insertionLabel) F
  given o.parentFeature parented F

/-- The line of text for a tree in a bracketed format. -/
def line (f : Ptb.Format) (F : Forest) : Str := ((F.brackets f).text (Bracketed.sepOf f)).flatten ++ ['\n']

/-- The leaves as tokens. -/
def tokens (F : Forest) : List Conllx.Token := F.leaves.map Conllx.tokenOf

/-- The leaves as tokens, with the entries of the encoding as feature `abs_ancestor`. -/
def absTokens (F : Forest) : List Conllx.Token :=
  let e := F.encoding 0 [] none
  (F.mapLeaves fun x => Tree.withFeature "abs_ancestor".toList (absText (e[x.span.start]?.getD (none, none))) x).tokens

/-- The same with the relative encoding as feature `rel_ancestor`. -/
def relTokens (F : Forest) : List Conllx.Token :=
  let e := relFromAbs (F.encoding 0 [] none)
  (F.mapLeaves fun x => Tree.withFeature "rel_ancestor".toList (relText (e[x.span.start]?.getD (none, none))) x).tokens

/-- The tree that the entries `e` of an absolute encoding and the tokens stand for: that of C33 with spans and, in place of
the features that hold them, the unary chains (C27). All nodes have features, if only an empty set. -/
def ofTags (e : AbsEncoding) (toks : List Conllx.Token) : Forest :=
  (((Decoding.forest e (toks.zipIdx.map fun p => Conllx.wordOf p.1 p.2)).respan 0).restore ['_']).norm

/-- What is written for a tree without gaps in the formats other than NEGRA. -/
def output (F : Forest) : Convert.OutFormat → Option Convert.Written
  | .conllx => some (.sentence F.tokens)
  | .absolute => some (.sentence (F.collapse ['_']).absTokens)
  | .relative => some (.sentence (F.collapse ['_']).relTokens)
  | .ptb => some (.text (F.line .ptb))
  | .simple => some (.text (F.line .simple))
  | .tueba => some (.text (F.line .tueba))
  | .negra => none

end Forest
end Lumberjack
