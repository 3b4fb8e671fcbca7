import Verif.Model.Base

/-!
# Model of `lumberjack/src/io/ptb.pest` as a parsing expression grammar

`Model/Ptb` models the generated parser by a tokenizer and a recursive descent. This file has the
grammar file itself, rule by rule, and the semantics pest 2 gives to it: ordered choice, greedy
repetition without backtracking into it, negative lookahead, implicit white space between the parts of a
sequence and between repetitions outside of atomic rules, and the pairs produced by rules.
-/

namespace Lumberjack
namespace Pest

/-- The rules of ptb.pest, and the built-in rule `NEWLINE`. -/
inductive Rule where
  | tree
  | node
  | nonterminal
  | char
  | preterminal
  | terminal
  | nodeLabel
  | opn
  | close
  | whitespace
  | newline
deriving DecidableEq

/-- Parsing expressions. `skip` and `more e` do not occur in a grammar: pest generates them, `skip` for
the implicit white space, and `more e` for the repetitions of `e` after the first. -/
inductive Exp where
  /-- a literal -/
  | str (s : Str)
  /-- `ANY` -/
  | any
  /-- `SOI`, the start of the input -/
  | soi
  /-- `EOI`, the end of the input -/
  | eoi
  /-- a rule -/
  | call (r : Rule)
  /-- `a ~ b` -/
  | seq (a b : Exp)
  /-- `a | b` -/
  | alt (a b : Exp)
  /-- `!a` -/
  | neg (a : Exp)
  /-- `a*` -/
  | rep (a : Exp)
  | skip
  | more (a : Exp)

/-- `a+` is `a ~ a*` in pest. -/
def Exp.plus (a : Exp) : Exp := .seq a (.rep a)

/-- The modifiers `_` and `@` of rules. -/
inductive Kind where
  | normal
  | silent
  | atomic

/-- ptb.pest:1-10: the modifier of each rule. -/
def Rule.kind : Rule → Kind
  | .nonterminal | .preterminal => .normal
  | .terminal | .nodeLabel => .atomic
  | .tree | .node | .char | .opn | .close | .whitespace | .newline => .silent

/-- ptb.pest:1-10: the body of each rule; `NEWLINE` is pest's `"\n" | "\r\n" | "\r"`. -/
def Rule.body : Rule → Exp
  | .tree => .seq (.seq .soi (.call .node)) .eoi
  | .node => .alt (.call .preterminal) (.call .nonterminal)
  | .nonterminal => .seq (.seq (.seq (.call .opn) (.call .nodeLabel)) (Exp.call .node).plus) (.call .close)
  | .char => .seq (.neg (.alt (.alt (.call .whitespace) (.str ['('])) (.str [')']))) .any
  | .preterminal => .seq (.seq (.seq (.call .opn) (.call .nodeLabel)) (.call .terminal)) (.call .close)
  | .terminal => (Exp.call .char).plus
  | .nodeLabel => (Exp.call .char).plus
  | .opn => .str ['(']
  | .close => .str [')']
  | .whitespace => .alt (.str [' ']) (.call .newline)
  | .newline => .alt (.alt (.str ['\n']) (.str ['\r', '\n'])) (.str ['\r'])

/-- The pairs a parse produces: the pair of a rule with the text it matched and the pairs inside, and the
pair of `EOI`. -/
inductive Pair where
  | rule (r : Rule) (text : Str) (inner : List Pair)
  | eoi

/-- What is left to read, and how much has been read. -/
structure Pos where
  read : Nat
  rest : Str

/-- Whether a rule of this kind, called in an atomic rule or not, has an atomic body. Atomicity is
inherited by called rules. -/
def Kind.within (k : Kind) (atomic : Bool) : Bool :=
  match k with
  | .atomic => true
  | _ => atomic

/-- The pairs of a rule of this kind which matched `text`, given those of its body. -/
def Kind.pairs (k : Kind) (r : Rule) (text : Str) (inner : List Pair) : List Pair :=
  match k with
  | .normal => [.rule r text inner]
  | .silent => inner
  | .atomic => [.rule r text []]

/-- `Runs a e p o`: matching the expression `e` at `p`, in an atomic rule if `a`, has the outcome `o`:
the pairs produced and where matching stopped, or `none` when `e` does not match. -/
inductive Runs : Bool → Exp → Pos → Option (List Pair × Pos) → Prop
  | str {a : Bool} {w z : Str} {p : Pos} : p.rest = w ++ z →
    Runs a (.str w) p (some ([], ⟨p.read + w.length, z⟩))
  | str_fail {a : Bool} {w : Str} {p : Pos} : ¬ w <+: p.rest → Runs a (.str w) p none
  | any {a : Bool} {n : Nat} {c : Char} {z : Str} :
    Runs a .any ⟨n, c :: z⟩ (some ([], ⟨n + 1, z⟩))
  | any_fail {a : Bool} {n : Nat} : Runs a .any ⟨n, []⟩ none
  | soi {a : Bool} {z : Str} : Runs a .soi ⟨0, z⟩ (some ([], ⟨0, z⟩))
  | soi_fail {a : Bool} {n : Nat} {z : Str} : Runs a .soi ⟨n + 1, z⟩ none
  | eoi {a : Bool} {n : Nat} : Runs a .eoi ⟨n, []⟩ (some ([.eoi], ⟨n, []⟩))
  | eoi_fail {a : Bool} {n : Nat} {c : Char} {z : Str} : Runs a .eoi ⟨n, c :: z⟩ none
  | call {a : Bool} {r : Rule} {p q : Pos} {w : Str} {ps : List Pair} : p.rest = w ++ q.rest →
    Runs (r.kind.within a) r.body p (some (ps, q)) →
    Runs a (.call r) p (some (r.kind.pairs r w ps, q))
  | call_fail {a : Bool} {r : Rule} {p : Pos} :
    Runs (r.kind.within a) r.body p none → Runs a (.call r) p none
  | seq {a : Bool} {d e : Exp} {p q q' q'' : Pos} {ps ps' ps'' : List Pair} :
    Runs a d p (some (ps, q)) → Runs a .skip q (some (ps', q')) → Runs a e q' (some (ps'', q'')) →
    Runs a (.seq d e) p (some (ps ++ ps' ++ ps'', q''))
  | seq_fail {a : Bool} {d e : Exp} {p : Pos} : Runs a d p none → Runs a (.seq d e) p none
  | seq_fail' {a : Bool} {d e : Exp} {p q q' : Pos} {ps ps' : List Pair} :
    Runs a d p (some (ps, q)) → Runs a .skip q (some (ps', q')) → Runs a e q' none →
    Runs a (.seq d e) p none
  | alt {a : Bool} {d e : Exp} {p : Pos} {x : List Pair × Pos} :
    Runs a d p (some x) → Runs a (.alt d e) p (some x)
  | alt' {a : Bool} {d e : Exp} {p : Pos} {o : Option (List Pair × Pos)} :
    Runs a d p none → Runs a e p o → Runs a (.alt d e) p o
  | neg {a : Bool} {e : Exp} {p : Pos} : Runs a e p none → Runs a (.neg e) p (some ([], p))
  | neg_fail {a : Bool} {e : Exp} {p : Pos} {x : List Pair × Pos} :
    Runs a e p (some x) → Runs a (.neg e) p none
  | rep_nil {a : Bool} {e : Exp} {p : Pos} : Runs a e p none → Runs a (.rep e) p (some ([], p))
  | rep {a : Bool} {e : Exp} {p q q' : Pos} {ps ps' : List Pair} :
    Runs a e p (some (ps, q)) → Runs a (.more e) q (some (ps', q')) →
    Runs a (.rep e) p (some (ps ++ ps', q'))
  | more_nil {a : Bool} {e : Exp} {p q : Pos} {ps : List Pair} :
    Runs a .skip p (some (ps, q)) → Runs a e q none → Runs a (.more e) p (some ([], p))
  | more {a : Bool} {e : Exp} {p q q' q'' : Pos} {ps ps' ps'' : List Pair} :
    Runs a .skip p (some (ps, q)) → Runs a e q (some (ps', q')) → Runs a (.more e) q' (some (ps'', q'')) →
    Runs a (.more e) p (some (ps ++ ps' ++ ps'', q''))
  | skip_atomic {p : Pos} : Runs true .skip p (some ([], p))
  | skip {p : Pos} {o : Option (List Pair × Pos)} :
    Runs true (.rep (.call .whitespace)) p o → Runs false .skip p o

/-- ptb.rs:94 `PTBParser::parse(Rule::tree, string)`: the pairs, or `none` for an error. -/
def Parses (s : Str) (o : Option (List Pair)) : Prop :=
  ∃ x, Runs false (.call .tree) ⟨0, s⟩ x ∧ o = x.map Prod.fst

end Pest
end Lumberjack
