import Verif.Model.Ptb
import Verif.Spec.Forest

/-!
# Bracketed text

The bracketed notation of the three formats, independent of writer and parser: which texts are
bracketings (`Reads`), what tree a bracketing stands for (`Brackets.forest`), and how a tree is
written (`Forest.text`).
-/

namespace Lumberjack

/-- An ordered forest of bracketings: `(tag word)` or `(tag bracketing ...)`. -/
inductive Brackets where
  | nil
  | leaf (tag word : Str) (rest : Brackets)
  | node (tag : Str) (kids rest : Brackets)
deriving DecidableEq

namespace Bracketed

/-- A sequence of spaces, newlines and carriage returns. -/
def Space (s : Str) : Prop := ∀ c ∈ s, c = ' ' ∨ c = '\n' ∨ c = '\r'

/-- A non-empty string without spaces, newlines, carriage returns and brackets. -/
def Word (s : Str) : Prop :=
  s ≠ [] ∧ ∀ c ∈ s, c ≠ ' ' ∧ c ≠ '\n' ∧ c ≠ '\r' ∧ c ≠ '(' ∧ c ≠ ')'

/-- The text is a sequence of bracketings, possibly with white space before, between, inside and
after them. -/
inductive Reads : Str → Brackets → Prop where
  | nil {a : Str} : Space a → Reads a .nil
  | leaf {a b tag c word d rest : Str} {r : Brackets} : Space a → Space b → Word tag →
      Space c → c ≠ [] → Word word → Space d → Reads rest r →
      Reads (a ++ '(' :: (b ++ tag ++ c ++ word ++ d ++ ')' :: rest)) (.leaf tag word r)
  | node {a b tag inner rest : Str} {k r : Brackets} : Space a → Space b → Word tag →
      Reads inner k → k ≠ .nil → Reads rest r →
      Reads (a ++ '(' :: (b ++ tag ++ inner ++ ')' :: rest)) (.node tag k r)

/-- The text before the first occurrence of `c`. -/
def before (c : Char) (s : Str) : Str := s.takeWhile (fun x => x ≠ c)

/-- The text after the first occurrence of `c`, if there is one. -/
def after (c : Char) (s : Str) : Option Str :=
  if c ∈ s then some (s.dropWhile (fun x => x ≠ c)).tail else none

/-- What a tag says in each format: label, edge label, node annotation.

* simple: the tag is the label;
* PTB: `label-annotation`, where the annotation includes the dash;
* TueBa: `label=annotation:edge`, where further `=` and `:` fields are ignored and the edge label
  `--` stands for no label. -/
def readTag : Ptb.Format → Str → Str × Option Str × Option Str
  | .simple, s => (s, none, none)
  | .ptb, s => (before '-' s, none, (after '-' s).map ('-' :: ·))
  | .tueba, s => (before '=' (before ':' s),
      ((after ':' s).map (before ':')).filter (fun e => e ≠ "--".toList),
      (after '=' (before ':' s)).map (before '='))

/-- The features of a node with the given annotation. -/
def annotated : Option Str → Option Features
  | none => none
  | some a => some ⟨[("node_annotation".toList, some a)]⟩

/-- The annotation in a set of features. -/
def annotationOf (f : Option Features) : Option Str :=
  match f with
  | none => none
  | some f => match f.entries.find? (fun e => e.1 = "node_annotation".toList) with
    | some (_, some a) => some a
    | _ => none

/-- Brackets are not allowed in words: they are written `LBR` and `RBR`. -/
def escape (s : Str) : Str :=
  s.flatMap fun c => if c = '(' then "LBR".toList else if c = ')' then "RBR".toList else [c]

/-- The tag written for a label, an edge label and an annotation. -/
def writeTag : Ptb.Format → Str → Option Str → Option Str → Str
  | .simple, l, _, _ => l
  | .ptb, l, _, a => l ++ (match a with | some a => '-' :: a | none => [])
  | .tueba, l, e, a => l ++ (match a with | some a => '=' :: a | none => [])
      ++ ':' :: (match e with | some e => e | none => "--".toList)

end Bracketed

open Bracketed

namespace Brackets

/-- Exactly one bracketing. -/
def Single : Brackets → Prop
  | .nil => False
  | .leaf _ _ r => r = .nil
  | .node _ _ r => r = .nil

/-- Number of words. -/
def len : Brackets → Nat
  | .nil => 0
  | .leaf _ _ r => r.len + 1
  | .node _ k r => k.len + r.len

/-- The words from left to right. -/
def words : Brackets → List Str
  | .nil => []
  | .leaf _ w r => w :: r.words
  | .node _ k r => k.words ++ r.words

/-- The labelled trees the bracketings stand for; the first word has position `i`. -/
def forest (f : Ptb.Format) : Nat → Brackets → Forest
  | _, .nil => .nil
  | i, .leaf tag w r =>
    .leaf (readTag f tag).2.1 ⟨w, (readTag f tag).1, none, none, ⟨i, i + 1, none⟩⟩ (forest f (i + 1) r)
  | i, .node tag k r =>
    .node (readTag f tag).2.1
      ⟨(readTag f tag).1, annotated (readTag f tag).2.2, ⟨i, i + k.len, none⟩⟩
      (forest f i k) (forest f (i + k.len) r)

end Brackets

namespace Forest

/-- The first tree gets another edge label. -/
def setTop (e : Option Str) : Forest → Forest
  | nil => nil
  | leaf _ x r => leaf e x r
  | node _ x k r => node e x k r

/-- The bracketings written for a forest. -/
def brackets (f : Ptb.Format) : Forest → Brackets
  | nil => .nil
  | leaf e x r => .leaf (writeTag f (escape x.pos) e none) (escape x.form) (r.brackets f)
  | node e x k r => .node (writeTag f x.label e (annotationOf x.features)) (k.brackets f) (r.brackets f)

/-- What is left of a tree after writing and reading it: brackets in words and tags are replaced;
lemmas and features of terminals are lost; of the features of inner nodes only the annotation is
kept, and not at all in the simple format; the PTB format puts a dash before it; edge labels are only
kept in the TueBa format. -/
def written (f : Ptb.Format) : Forest → Forest
  | nil => nil
  | leaf e x r => leaf (if f = .tueba then e else none)
      ⟨escape x.form, escape x.pos, none, none, x.span⟩ (r.written f)
  | node e x k r => node (if f = .tueba then e else none)
      ⟨x.label, match f with
        | .simple => none
        | .ptb => annotated ((annotationOf x.features).map ('-' :: ·))
        | .tueba => annotated (annotationOf x.features), x.span⟩ (k.written f) (r.written f)

end Forest

/-- The text of a sequence of bracketings, one string each: `(tag word)` with one space;
`(tag bracketing ...)` with `sep` between all parts. -/
def Brackets.text (sep : Str) : Brackets → List Str
  | .nil => []
  | .leaf tag w r => ('(' :: (tag ++ ' ' :: w ++ [')'])) :: r.text sep
  | .node tag k r => ('(' :: (List.intercalate sep (tag :: k.text sep) ++ [')'])) :: r.text sep

namespace Bracketed

/-- The separator: nothing in the TueBa format, one space otherwise. -/
def sepOf : Ptb.Format → Str
  | .tueba => []
  | _ => [' ']

/-- Text that can be used as a label (or tag) in the given format. -/
def CleanLabel : Ptb.Format → Str → Prop
  | .simple, s => Word s
  | .ptb, s => Word s ∧ '-' ∉ s
  | .tueba, s => (s = [] ∨ Word s) ∧ ':' ∉ s ∧ '=' ∉ s

/-- Text that can be used as an annotation. -/
def CleanAnnotation : Ptb.Format → Option Str → Prop
  | .simple, _ => True
  | .ptb, a => ∀ s, a = some s → s = [] ∨ Word s
  | .tueba, a => ∀ s, a = some s → (s = [] ∨ Word s) ∧ ':' ∉ s ∧ '=' ∉ s

/-- Text that can be used as an edge label. -/
def CleanEdge : Ptb.Format → Option Str → Prop
  | .tueba, e => ∀ s, e = some s → (s = [] ∨ Word s) ∧ ':' ∉ s ∧ s ≠ "--".toList
  | _, _ => True

end Bracketed

/-- All labels, tags, words, edge labels and annotations of the tree can be represented. -/
def Forest.Clean (f : Ptb.Format) : Forest → Prop
  | .nil => True
  | .leaf e x r => CleanLabel f (escape x.pos) ∧ Word (escape x.form) ∧ CleanEdge f e ∧ r.Clean f
  | .node e x k r => CleanLabel f x.label ∧ CleanAnnotation f (annotationOf x.features) ∧
      CleanEdge f e ∧ k.Clean f ∧ r.Clean f

/-- All labels, tags, words, edge labels and annotations of the tree can be represented in the
format. -/
structure Tree.Writable (f : Ptb.Format) (t : Tree) : Prop where
  term : ∀ n x, t.graph.node? n = some (.term x) → CleanLabel f (escape x.pos) ∧ Word (escape x.form)
  nt : ∀ n x, t.graph.node? n = some (.nt x) → CleanLabel f x.label ∧ CleanAnnotation f (annotationOf x.features)
  edge : ∀ n, CleanEdge f (t.inLabel n)

/-- The words of the tree are free of brackets and white space, the terminals have no lemma and no
features, and inner nodes have no features but an annotation. -/
structure Tree.OnlyAnnotated (t : Tree) : Prop where
  term : ∀ n x, t.graph.node? n = some (.term x) → Word x.form ∧ escape x.pos = x.pos ∧
    x.lem = none ∧ x.features = none
  nt : ∀ n x, t.graph.node? n = some (.nt x) → x.features = annotated (annotationOf x.features)

/-! ## Files with bracketings spread over several lines -/

namespace Bracketed

/-- Lines skipped between bracketings: empty lines and comments. -/
def Skipped (l : Str) : Prop := l = [] ∨ l.head? = some '%'

/-- In the concatenation of the lines there are more opening than closing brackets. -/
def OpenEnd (ls : List Str) : Prop := ls.flatten.count ')' < ls.flatten.count '('

/-- No non-empty initial segment closes all brackets. -/
def Unfinished (ls : List Str) : Prop := ∀ p, p <+: ls → p ≠ [] → OpenEnd p

/-- The lines up to the first point where all brackets are closed. -/
structure Group (ls : List Str) : Prop where
  first : ∃ l, ls.head? = some l ∧ ¬ Skipped l
  proper : ∀ p, p <+: ls → p ≠ [] → p ≠ ls → OpenEnd p
  closed : ls.flatten.count ')' = ls.flatten.count '('

/-- The lines of a file are groups with skipped lines between them, and possibly an unfinished group
at the end; the texts of the complete groups are given. -/
inductive Groups : List Str → List Str → Prop where
  | tail {ls : List Str} : (∀ l, ls.head? = some l → ¬ Skipped l) → Unfinished ls → Groups ls []
  | skip {l : Str} {ls ts : List Str} : Skipped l → Groups ls ts → Groups (l :: ls) ts
  | group {g ls ts : List Str} : Group g → Groups ls ts → Groups (g ++ ls) (g.flatten :: ts)

end Bracketed

end Lumberjack
