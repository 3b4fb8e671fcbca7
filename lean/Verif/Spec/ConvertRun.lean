import Verif.Spec.Ancestor
import Verif.Spec.Bracket
import Verif.Spec.Chains
import Verif.Spec.Conllx
import Verif.Spec.Convert
import Verif.Spec.NegraOrder

/-!
# What a run of the conversion tool writes
-/

namespace Lumberjack
namespace Convert

open Lumberjack.Tree

/-- The trees the tool can handle: well-formed, more than a single word node, with the words stored in the
order of the sentence, and without secondary edges that start at a word. -/
structure Fit (t : Tree) : Prop where
  wf : t.WF
  rootNt : t.IsNt t.root
  order : t.InOrder
  sec : t.SecondaryNt

/-- The trees the tool can handle with given options: removing dummies and moving words to the root need two
words. -/
structure Suits (o : Options) (t : Tree) : Prop where
  fit : Fit t
  words : 2 ≤ t.nTerminals ∨ (o.removeDummies = false ∧ o.reattachLabel = none)

/-- Tags that tell the common ancestors of neighbouring words: the unary chains are collapsed, then the
word at position `i` gets the text of the `i`-th entry of the encoding as feature `abs_ancestor`. -/
def AbsTagged (t t' : Tree) : Prop :=
  ∃ f t1, t.Is f ∧ t1.WF ∧ t1.Is (f.collapse ['_']) ∧ TermEdit t1 t' fun _ x =>
    withFeature "abs_ancestor".toList
      (absText (((f.collapse ['_']).encoding 0 [] none)[x.span.start]?.getD (none, none))) x

/-- The same with the relative encoding (see C36), as feature `rel_ancestor`. -/
def RelTagged (t t' : Tree) : Prop :=
  ∃ f t1, t.Is f ∧ t1.WF ∧ t1.Is (f.collapse ['_']) ∧ TermEdit t1 t' fun _ x =>
    withFeature "rel_ancestor".toList
      (relText ((relFromAbs ((f.collapse ['_']).encoding 0 [] none))[x.span.start]?.getD (none, none))) x

/-- `s` is the NEGRA text of `t`, and `c` the counter afterwards: a header, a line for each word, a line for
each nonterminal but the root, a footer and an empty line (see C51). -/
def NegraText (counter : Nat) (t : Tree) (s : Str) (c : Nat) : Prop :=
  ∃ ns nts T N tl nl, Negra.Leaves t ns ∧ Negra.InSequence t nts ∧
    List.Forall₂ (Negra.IsTermRow t (Negra.num t nts)) ns T ∧
    List.Forall₂ (Negra.IsNtRow t (Negra.num t nts)) nts N ∧
    List.Forall₂ (fun l r => l = Negra.aligned Negra.widths (Negra.TermRow.columns r)) tl T ∧
    List.Forall₂ (fun l r => l = Negra.aligned Negra.widths (Negra.NtRow.columns r)) nl N ∧
    s = Negra.unlines (Negra.header ((Negra.featOf (Negra.rootFeatures t) "sentence_id".toList).getD (natToStr counter))
        (Negra.featOf (Negra.rootFeatures t) "metadata".toList) ::
      (tl ++ nl ++
        [Negra.footer ((Negra.featOf (Negra.rootFeatures t) "sentence_id".toList).getD (natToStr counter)), []])) ∧
    c = if (Negra.featOf (Negra.rootFeatures t) "sentence_id".toList).isSome then counter else counter + 1

/-- `s` is the line of text for `t` in a bracketed format (see C44). -/
def BracketText (f : Ptb.Format) (t : Tree) (s : Str) : Prop :=
  ∃ F b, t.Is F ∧ (F.brackets f).text (Bracketed.sepOf f) = [b] ∧ s = b ++ ['\n']

/-- The tokens of the words of `t` in order. -/
def Sentence (t : Tree) (s : List Conllx.Token) : Prop := ∃ ts, t.Terminals ts ∧ s = ts.map Conllx.tokenOf

/-- The tree has no gaps. -/
def NoGaps (t : Tree) : Prop := ∀ n, t.Live n → t.Gapless n

/-- What is written for a tree, with the counter of the NEGRA writer before and after.  Only CONLLX and NEGRA take
trees with gaps. -/
inductive Output : OutFormat → Nat → Tree → Written → Nat → Prop
  | conllx {c t s} : Sentence t s → Output .conllx c t (.sentence s) c
  | negra {c t s c'} : NegraText c t s c' → Output .negra c t (.text s) c'
  | absolute {c t t' s} : NoGaps t → AbsTagged t t' → Sentence t' s → Output .absolute c t (.sentence s) c
  | relative {c t t' s} : NoGaps t → RelTagged t t' → Sentence t' s → Output .relative c t (.sentence s) c
  | ptb {c t s} : NoGaps t → BracketText .ptb t s → Output .ptb c t (.text s) c
  | simple {c t s} : NoGaps t → BracketText .simple t s → Output .simple c t (.text s) c
  | tueba {c t s} : NoGaps t → BracketText .tueba t s → Output .tueba c t (.text s) c

/-- The output formats that can hold trees with gaps. -/
def HoldsGaps (out : OutFormat) : Prop := out = .conllx ∨ out = .negra

/-- The tags for the next tree: none without a POS file. -/
inductive NextTags : Option (List PosItem) → Option (List Str) → Option (List PosItem) → Prop
  | without : NextTags none none none
  | tags {l ps} : NextTags (some (.ok l :: ps)) (some l) (some ps)

/-- The items the reader gives one after the other until it stops (`true`) or panics (`false`). -/
inductive Stream (f : InFormat) (multiline : Bool) : Source → List (Except Err Tree) → Bool → Prop
  | stop {src src'} : next f multiline src = .ok (none, src') → Stream f multiline src [] true
  | crash {src} : next f multiline src = .panic → Stream f multiline src [] false
  | item {src src' r rs b} : next f multiline src = .ok (some r, src') → Stream f multiline src' rs b →
      Stream f multiline src (r :: rs) b

/-- The tags for the tree at position `i`: none without a POS file, else those of the `i`-th POS sentence. -/
def TagsAt (pos : Option (List PosItem)) (i : Nat) (tags : Option (List Str)) : Prop :=
  (pos = none ∧ tags = none) ∨ ∃ ps l, pos = some ps ∧ ps[i]? = some (.ok l) ∧ tags = some l

/-- The input format for a bracketed format. -/
def bracketInput : Ptb.Format → InFormat
  | .ptb => .ptb
  | .simple => .simple
  | .tueba => .tueba

/-- The options with no step switched on. -/
def plain (out : OutFormat) : Options where
  parentFeature := none
  reattachLabel := none
  removeDummies := false
  projectivize := false
  secEdges := false
  filterSet := none
  idSet := none
  idFeatureName := []
  insertionSet := none
  insertionLabel := []
  out := out

/-- What a tree that has been read needs besides: two words, or no removal of dummies, no moving of words and
a nonterminal as root. -/
def Enough (o : Options) (t : Tree) : Prop :=
  2 ≤ t.nTerminals ∨ (t.IsNt t.root ∧ o.removeDummies = false ∧ o.reattachLabel = none)

/-- In every sentence of the NEGRA file there is one line per nonterminal, none for the root, and no line comes
after that of the parent. -/
def Orderly (lines : List Str) : Prop :=
  ∀ pre hd body f rest id info T N, lines = pre ++ hd :: (body ++ f :: rest) → Negra.Opens hd id info →
    Negra.Rows body T N → Negra.Closes f id → Negra.OwnNumbers N ∧ Negra.ChildrenFirst N

/-- A run on the given items of the reader (and whether it stops normally) with the given POS sentences and the counter of the writer: what is
written, and how the run ends. -/
inductive Run (o : Options) :
    List (Except Err Tree) → Bool → Option (List PosItem) → Nat → List Written → End → Prop
  /-- the input is used up -/
  | finished {pos c} : Run o [] true pos c [] .finished
  /-- the reader panics -/
  | crashed {pos c} : Run o [] false pos c [] .panicked
  /-- the reader reports an error -/
  | unreadable {e items b pos c} : Run o (.error e :: items) b pos c [] (.exited e)
  /-- there are more trees than POS sentences -/
  | noTags {t items b c} : Run o (.ok t :: items) b (some []) c [] (.exited (.parse 40))
  /-- the POS sentence cannot be read -/
  | badTags {t items b e ps c} : Run o (.ok t :: items) b (some (.error e :: ps)) c [] (.exited e)
  /-- the POS sentence is too short -/
  | short {t items b l ps c} : l.length < t.nTerminals →
      Run o (.ok t :: items) b (some (.ok l :: ps)) c [] (.exited .notEnoughPos)
  /-- the POS sentence is too long -/
  | long {t items b l ps c} : t.nTerminals < l.length →
      Run o (.ok t :: items) b (some (.ok l :: ps)) c [] (.exited .tooManyPos)
  /-- the processed tree has gaps and the output format cannot hold it -/
  | gaps {t t' items b pos tags pos' c} : NextTags pos tags pos' → (∀ l, tags = some l → l.length = t.nTerminals) →
      Pipeline o tags t t' → ¬ HoldsGaps o.out → ¬ NoGaps t' →
      Run o (.ok t :: items) b pos c [] (.exited .nonProjective)
  /-- the processed tree is written -/
  | write {t t' items b pos tags pos' c w c' ws e} : NextTags pos tags pos' →
      (∀ l, tags = some l → l.length = t.nTerminals) → Pipeline o tags t t' → Output o.out c t' w c' →
      Run o items b pos' c' ws e → Run o (.ok t :: items) b pos c (w :: ws) e

end Convert
end Lumberjack
