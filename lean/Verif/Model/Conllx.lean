import Verif.Model.Encode

/-!
# Model of `lumberjack/src/io/conllx.rs`

The crate `conllx` is not part of the repository. A `Sentence` is modelled as the list of its
tokens (the artificial root node, skipped by `filter_map(Node::token)`, is left out). A token's
feature field is the string it was built from; looking a key up (`as_map().get(key)`) splits it at
`|` and each part at `:`, the last entry for a key winning.
-/

namespace Lumberjack
namespace Conllx

/-- `conllx::token::Token`, the fields used here. -/
structure Token where
  form : Str
  lem : Option Str
  pos : Option Str
  features : Option Str
deriving DecidableEq

/-- `conllx::token::Features::from_string(s).as_map().get(key)`. -/
def featLookup (key s : Str) : Option (Option Str) :=
  ((splitOn '|' s).map Features.parseOne).foldl
    (fun acc kv => if kv.1 = key then some kv.2 else acc) none

/-- conllx.rs:132-142 `From<&Terminal> for Token`. -/
def ofTerminal (tm : Terminal) : Token := ⟨tm.form, tm.lem, some tm.pos, tm.features.map Features.toStr⟩

/-- conllx.rs:174-177, the terminals of a list of nodes. -/
def terminalsOf (t : Tree) : List Nat → Res (List Terminal)
  | [] => .ok []
  | n :: ns => do
    let nd ← t.node n
    let tm ← Res.ofOption nd.terminal
    let rest ← terminalsOf t ns
    return tm :: rest

/-- conllx.rs:170-179 `From<&Tree> for Sentence`; also `to_conllx` (126-130). -/
def toConllx (t : Tree) : Res (List Token) := do
  let tms ← terminalsOf t (t.sortIndices t.terminals)
  return tms.map ofTerminal

/-- conllx.rs:151-161, the loop of the consuming conversion: the content of each terminal is moved
out of the tree. -/
def drainLoop : List Nat → Tree → Res (List (Token × Nat))
  | [], _ => .ok []
  | n :: ns, t => do
    let nd ← t.node n
    let tm ← Res.ofOption nd.terminal
    let tok : Token := ⟨tm.form, tm.lem, some tm.pos, tm.features.map Features.toStr⟩
    let rest ← drainLoop ns (t.setNode n (.term { tm with form := [], lem := none, pos := [], features := none }))
    return (tok, tm.span.start) :: rest

/-- conllx.rs:144-169 `From<Tree> for Sentence`. -/
def intoConllx (t : Tree) : Res (List Token) := do
  let toks ← drainLoop (t.sortIndices t.terminals) t
  return (toks.insertionSort (fun a b => a.2 ≤ b.2)).map (·.1)

/-- conllx.rs:53-59, 89-95: the ancestor annotation of a token. -/
def ancestorStr (key : Str) (tok : Token) : Except Err Str :=
  match tok.features.bind (featLookup key) with
  | none => .error (.parse 30)
  | some none => .error (.parse 31)
  | some (some s) => .ok s

/-- conllx.rs:62-78, 98-114: split the annotation into ancestor and leaf chain. -/
def splitAncestor {α : Type} (parse : Str → Except Err α) (s : Str) :
    Except Err (Option α × Option Str) :=
  match splitOn '~' s with
  | [] => .error (.parse 32)
  | a :: rest =>
    let chain := rest.head?.filter (fun s => s ≠ [])
    if a = Tree.noneMarker then .ok (none, chain)
    else match parse a with
      | .ok x => .ok (some x, chain)
      | .error e => .error e

/-- conllx.rs:52-79, 88-115: the loop over the tokens. -/
def readTokens {α : Type} (key : Str) (parse : Str → Except Err α) :
    List Token → Nat → Except Err (List (Option α × Option Str) × List Terminal)
  | [], _ => .ok ([], [])
  | tok :: toks, idx =>
    match ancestorStr key tok with
    | .error e => .error e
    | .ok s =>
      let tm := Terminal.new tok.form (tok.pos.getD ['_']) idx
      match splitAncestor parse s with
      | .error e => .error e
      | .ok entry =>
        match readTokens key parse toks (idx + 1) with
        | .error e => .error e
        | .ok (enc, tms) => .ok (entry :: enc, tm :: tms)

/-- Decode, then restore the unary chains (conllx.rs:80-82, 120-122). -/
def finishDecode (enc : AbsEncoding) (tms : List Terminal) : Res (Except Err Tree) := do
  let t ← Tree.decode enc tms
  let (t', r) ← t.restoreUnaryChains ['_']
  match r with
  | .ok () => return .ok t'
  | .error e => return .error e

/-- conllx.rs:49-83 `try_from_conllx_with_absolute_encoding`.  (`sentence.len() - 1` is the number
of tokens and cannot underflow: a `Sentence` always has its root node.) -/
def tryFromAbsolute (s : List Token) : Res (Except Err Tree) :=
  match readTokens "abs_ancestor".toList AbsAncestor.parse s 0 with
  | .error e => .ok (.error e)
  | .ok (enc, tms) => finishDecode enc tms

/-- conllx.rs:85-123 `try_from_conllx_with_relative_encoding`. -/
def tryFromRelative (s : List Token) : Res (Except Err Tree) :=
  match readTokens "rel_ancestor".toList RelAncestor.parse s 0 with
  | .error e => .ok (.error e)
  | .ok (enc, tms) => finishDecode (Lumberjack.tryFromRelative enc).unwrapOrFix tms

end Conllx
end Lumberjack
