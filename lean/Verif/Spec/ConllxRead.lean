import Verif.Spec.Chains
import Verif.Spec.Conllx
import Verif.Spec.Convert

/-!
# Specification vocabulary for reading tagged sentences
-/

namespace Lumberjack
namespace Conllx

/-- The token has feature `key` with value `s`. -/
def TagOf (key : Str) (tok : Token) (s : Str) : Prop :=
  ∃ fs, tok.features = some fs ∧ featLookup key fs = some (some s)

/-- The text `s` is an ancestor, optionally followed by `~` and the labels of a chain; the ancestor is `NONE`
or a text that `parse` accepts.  An empty chain is no chain, and what follows a second `~` does not count. -/
def ReadsAs {α : Type} (parse : Str → Except Err α) (s : Str) (e : Option α × Option Str) : Prop :=
  ∃ a rest, splitOn '~' s = a :: rest ∧ e.2 = rest.head?.filter (fun c => c ≠ []) ∧
    ((a = "NONE".toList ∧ e.1 = none) ∨ (a ≠ "NONE".toList ∧ ∃ x, parse a = .ok x ∧ e.1 = some x))

/-- The token has a tag that reads as `e`. -/
def Tag {α : Type} (key : Str) (parse : Str → Except Err α) (tok : Token) (e : Option α × Option Str) : Prop :=
  ∃ s, TagOf key tok s ∧ ReadsAs parse s e

/-- The word for the token at position `i`: lemma and features are dropped, a missing tag is `_`. -/
def wordOf (tok : Token) (i : Nat) : Terminal := Terminal.new tok.form (tok.pos.getD ['_']) i

/-- `t` is the tree for the entries `e` and the tokens `toks`. -/
structure Decoded (e : AbsEncoding) (toks : List Token) (t : Tree) : Prop where
  wf : t.WF
  proj : t.isProjective = true
  size : t.nTerminals = toks.length
  /-- the words are those of the tokens, in order, ... -/
  words : ∀ n x i, t.graph.node? n = some (.term x) → x.span = Span.ofIdx i → ∃ tok, toks[i]? = some tok ∧
    x.form = tok.form ∧ x.pos = tok.pos.getD ['_'] ∧ x.lem = none ∧ x.features = some Features.empty
  /-- ... and stored in order -/
  order : t.InOrder
  /-- there are no secondary edges -/
  prim : ∀ r ∈ t.graph.edges, r.w.isPrimary = true
  /-- the tree is the one the entries stand for (C33), with the chains put back (C27) -/
  shape : ∃ f, t.Is f ∧ f.norm =
    (((Decoding.forest e (toks.zipIdx.map fun p => wordOf p.1 p.2)).respan 0).restore ['_']).norm

end Conllx
end Lumberjack
