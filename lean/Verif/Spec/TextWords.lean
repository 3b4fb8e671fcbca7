import Verif.Spec.ConvertRun

/-!
# The words in a text
-/

namespace Lumberjack
namespace Bracketed

/-- A character that is a space, a newline, a carriage return or a bracket. -/
def Special (c : Char) : Bool := c = ' ' || c = '\n' || c = '\r' || c = '(' || c = ')'

/-- The word at the end of a text, white space aside: nothing if there is a bracket. -/
def lastWord (s : Str) : Option Str :=
  let w := ((s.reverse.dropWhile fun c => c = ' ' || c = '\n' || c = '\r').takeWhile fun c => !Special c).reverse
  if w = [] then none else some w

/-- The words of a bracketed text: those directly before a closing bracket, white space aside.  `piece` is what has been
seen since the last closing bracket. -/
def wordsFrom (piece : Str) : Str → List Str
  | [] => []
  | c :: s => if c = ')' then (lastWord piece).toList ++ wordsFrom [] s else wordsFrom (piece ++ [c]) s

/-- The words of a bracketed text from left to right. -/
def wordsIn (s : Str) : List Str := wordsFrom [] s

end Bracketed

namespace Tree

/-- All labels and annotations of nonterminals and all labels of edges to children satisfy `P`. -/
structure Texts (P : Str → Prop) (t : Tree) : Prop where
  label : ∀ n x, t.graph.node? n = some (.nt x) → P x.label
  annotation : ∀ n x a, t.graph.node? n = some (.nt x) → Bracketed.annotationOf x.features = some a → P a
  edge : ∀ n l, t.inLabel n = some l → P l

end Tree

namespace Convert

/-- The formats that write a word as it is, and those that replace its brackets. -/
def shown : OutFormat → Str → Str
  | .ptb, w => Bracketed.escape w
  | .simple, w => Bracketed.escape w
  | .tueba, w => Bracketed.escape w
  | _, w => w

/-- The bracketed formats. -/
def IsBracketed (out : OutFormat) : Prop := out = .ptb ∨ out = .simple ∨ out = .tueba

/-- What is written in the format has the words `ws`, in this order: as forms of its tokens; as the beginnings of
the lines between the first one and the next that starts with `#`; or before its closing brackets. -/
def Says (out : OutFormat) : Written → List Str → Prop
  | .sentence s, ws => ¬ IsBracketed out ∧ out ≠ .negra ∧ s.map (·.form) = ws
  | .text s, ws =>
    (out = .negra ∧ ∃ head lines rest, s = Negra.unlines (head :: (lines ++ rest)) ∧
      List.Forall₂ (fun l w => ∃ r, l = w ++ ' ' :: r) lines ws ∧ ∃ l, rest.head? = some l ∧ l.head? = some '#') ∨
    (IsBracketed out ∧ Bracketed.wordsIn s = ws)

/-- The texts of the trees in a file with bracketings: the lines that do not start with `%`, or, with `--multiline`,
the groups of lines after which all brackets are closed. -/
def BracketTexts (multiline : Bool) (lines texts : List Str) : Prop :=
  (multiline = false ∧ texts = lines.filter fun l => l.head? ≠ some '%') ∨
  (multiline = true ∧ Bracketed.Groups lines texts)

/-- There are at least two words, or a phrase around the word, no removal of dummies and no moving of words. -/
def EnoughText (o : Options) (s : Str) : Prop :=
  2 ≤ (Bracketed.wordsIn s).length ∨ (2 ≤ s.count '(' ∧ o.removeDummies = false ∧ o.reattachLabel = none)

end Convert

namespace Negra

/-- The first sentences of a NEGRA file: the rows of their terminals and nonterminals. -/
inductive Sentences : List Str → List (List TermRow × List NtRow) → Prop
  | nil {ls} : Sentences ls []
  | cons {pre hd body f rest id info T N Ts} : (∀ l ∈ pre, ¬ IsFrame l) → Opens hd id info → Rows body T N → Closes f id →
      Sentences rest Ts → Sentences (pre ++ hd :: (body ++ f :: rest)) ((T, N) :: Ts)

/-- Every sentence of the file satisfies `Q`. -/
def EverySentence (lines : List Str) (Q : List TermRow → List NtRow → Prop) : Prop :=
  ∀ pre hd body f rest id info T N, lines = pre ++ hd :: (body ++ f :: rest) → Opens hd id info →
    Rows body T N → Closes f id → Q T N

/-- There is no closing bracket in the labels, annotations and labels of edges. -/
def NoClosing (T : List TermRow) (N : List NtRow) : Prop :=
  (∀ r ∈ T, ∀ e, r.att.edge = some e → ')' ∉ e) ∧
  ∀ r ∈ N, ')' ∉ r.label ∧ (∀ a, r.ann = some a → ')' ∉ a) ∧ ∀ e, r.att.edge = some e → ')' ∉ e

end Negra
end Lumberjack
