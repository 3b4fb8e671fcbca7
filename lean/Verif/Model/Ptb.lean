import Verif.Model.Tree

/-!
# Model of `lumberjack/src/io/ptb.rs` and `lumberjack/src/io/ptb.pest`
-/

namespace Lumberjack
namespace Ptb

/-- ptb.rs:46-77 `enum PTBFormat`. -/
inductive Format where
  | ptb
  | simple
  | tueba
deriving DecidableEq, Repr

/-- io/mod.rs:14 `NODE_ANNOTATION_FEATURE_KEY`. -/
def annotationKey : Str := "node_annotation".toList

/-- The edge placeholder `"--"`. -/
def dashes : Str := "--".toList

/-! ## Writing -/

/-- ptb.rs:151-152, `s.replace("(", "LBR").replace(")", "RBR")`. -/
def escape (s : Str) : Str :=
  s.flatMap fun c => if c = '(' then "LBR".toList else if c = ')' then "RBR".toList else [c]

/-- ptb.rs:150-159 `fmt_term`. -/
def fmtTerm (f : Format) (form pos : Str) (edge : Option Str) : Str :=
  match f with
  | .tueba => "(".toList ++ escape pos ++ ":".toList ++ edge.getD dashes ++ " ".toList
      ++ escape form ++ ")".toList
  | _ => "(".toList ++ escape pos ++ " ".toList ++ escape form ++ ")".toList

/-- ptb.rs:122-129: the node annotation. -/
def annotation (nt : NonTerminal) : Option Str :=
  (nt.features.bind fun f => f.getVal annotationKey).bind id

/-- ptb.rs:120-148 `fmt_inner`. -/
def fmtInner (f : Format) (nt : NonTerminal) (edge : Option Str) : Str :=
  match f with
  | .ptb => nt.label ++ (match annotation nt with | some a => '-' :: a | none => [])
  | .simple => nt.label
  | .tueba => nt.label ++ (match annotation nt with | some a => '=' :: a | none => [])
      ++ ":".toList ++ edge.getD dashes

/-- ptb.rs:114 `node_sep`. -/
def nodeSep : Format → Str
  | .tueba => []
  | _ => [' ']

/-- ptb.rs:105-108: children of a node sorted by span. Absent nodes compare equal (the code would
panic); children are always live. -/
def sortedChildren (t : Tree) (n : Nat) : List (Nat × Nat) :=
  (t.children n).insertionSort fun c d =>
    (match t.graph.node? c.1, t.graph.node? d.1 with
      | some a, some b => a.span.cmp b.span
      | _, _ => .eq) ≠ .gt

/-- ptb.rs:99-118 `format_sub_tree`; the first argument bounds the recursion depth. -/
def formatSubTree (f : Format) (t : Tree) : Nat → Nat → Option Str → Res Str
  | 0, _, _ => .diverge
  | fuel + 1, n, edge => do
    let nd ← t.node n
    match nd with
    | .term x => return fmtTerm f x.form x.pos edge
    | .nt x => do
      let reps ← (sortedChildren t n).mapM fun c => do
        let e ← t.edge c.2
        formatSubTree f t fuel c.1 e.label
      return "(".toList ++ join (nodeSep f) (fmtInner f x edge :: reps) ++ ")".toList

/-- ptb.rs:81-87 `tree_to_string`. -/
def treeToString (f : Format) (t : Tree) : Res (Except Err Str) :=
  if t.isProjective then do
    let s ← formatSubTree f t t.climbFuel t.root none
    return .ok s
  else
    .ok (.error .nonProjective)

/-! ## Parsing: grammar -/

/-- Tokens of the grammar: brackets and maximal runs of other characters. -/
inductive Tok where
  | op
  | cl
  | word (s : Str)
deriving DecidableEq

/-- ptb.pest `WHITESPACE` (`NEWLINE` is `\n`, `\r\n` or `\r`). -/
def isWs (c : Char) : Bool := c = ' ' || c = '\n' || c = '\r'

/-- ptb.pest `char`. -/
def isWordChar (c : Char) : Bool := !(isWs c || c = '(' || c = ')')

/-- The lexical part of ptb.pest: implicit whitespace is skipped between tokens, `node_label` and
`terminal` are atomic, greedy runs of `char`. -/
def tokenize : Str → List Tok
  | [] => []
  | c :: cs =>
    if c = '(' then .op :: tokenize cs
    else if c = ')' then .cl :: tokenize cs
    else if isWs c then tokenize cs
    else match tokenize cs with
      | .word w :: rest =>
        if cs.head?.any isWordChar then .word (c :: w) :: rest else .word [c] :: .word w :: rest
      | toks => .word [c] :: toks

/-- pest `Pair`s for the rules `preterminal` and `nonterminal`. -/
inductive Pair where
  | pre (label form : Str)
  | nont (label : Str) (children : List Pair)

mutual
/-- ptb.pest `node`: `preterminal` is tried first, then `nonterminal`. -/
def parseNode : Nat → List Tok → Option (Pair × List Tok)
  | 0, _ => none
  | fuel + 1, .op :: .word l :: rest =>
    match rest with
    | .word w :: .cl :: rest' => some (.pre l w, rest')
    | _ =>
      match parseNodes fuel rest with
      | (p :: ps, .cl :: rest') => some (.nont l (p :: ps), rest')
      | _ => none
  | _ + 1, _ => none
/-- ptb.pest `node+` (greedy, without backtracking; the empty result is rejected by `parseNode`). -/
def parseNodes : Nat → List Tok → List Pair × List Tok
  | 0, toks => ([], toks)
  | fuel + 1, toks =>
    match parseNode fuel toks with
    | some (p, rest) => let r := parseNodes fuel rest; (p :: r.1, r.2)
    | none => ([], toks)
end

/-- ptb.pest `tree`, i.e. `PTBParser::parse(Rule::tree, string)`. -/
def parsePairs (s : Str) : Option Pair :=
  let toks := tokenize s
  match parseNode (2 * toks.length + 1) toks with
  | some (p, []) => some p
  | _ => none

/-! ## Parsing: building the graph -/

/-- Rust `str::find(c)` followed by slicing: text before the first occurrence and the rest
*including* the occurrence. -/
def splitFirstIncl (c : Char) : Str → Option (Str × Str)
  | [] => none
  | x :: xs =>
    if x = c then some ([], x :: xs)
    else (splitFirstIncl c xs).map fun (a, b) => (x :: a, b)

/-- ptb.rs:233-265 `process_label`: (label, edge, annotation). -/
def processLabel (f : Format) (label : Str) : Str × Option Str × Option Str :=
  match f with
  | .ptb =>
    match splitFirstIncl '-' label with
    | some (l, a) => (l, none, some a)
    | none => (label, none, none)
  | .tueba =>
    let parts := splitOn ':' label
    let tag := parts.headD []
    let edge := (parts.tail.head?).filter (fun s => s ≠ dashes)
    let labelParts := splitOn '=' tag
    (labelParts.headD [], edge, labelParts.tail.head?)
  | .simple => (label, none, none)

/-- ptb.rs:173-178: the features of a new inner node. -/
def annotationFeatures : Option Str → Option Features
  | some a => some (Features.empty.insert annotationKey (some a)).1
  | none => none

mutual
/-- ptb.rs:162-209 `parse_value`: state is the graph and the number of terminals so far; returns
span, node index and edge of the subtree. -/
def parseValue (f : Format) : Pair → Graph × Nat → Res ((Span × Nat × Edge) × (Graph × Nat))
  | .pre label form, (g, k) =>
    let (tag, edge, _) := processLabel f label
    let (g', i) := g.addNode (.term (Terminal.new form tag k))
    .ok ((Span.ofIdx k, i, .primary edge), (g', k + 1))
  | .nont label children, (g, k) => do
    let (l, edge, ann) := processLabel f label
    let nt : NonTerminal := ⟨l, annotationFeatures ann, Span.ofIdx 0⟩
    let (g1, i) := g.addNode (.nt nt)
    let ((lower, upper), (g2, k2)) ← parseValues f i children true (0, 0) (g1, k)
    let span ← Span.new lower upper
    let nd ← Res.ofOption (g2.node? i)
    let x ← Res.ofOption nd.nonterminal
    return ((span, i, .primary edge), (g2.setNode i (.nt { x with span := span }), k2))
/-- ptb.rs:184-191, the loop over the children. -/
def parseValues (f : Format) (parent : Nat) :
    List Pair → Bool → Nat × Nat → Graph × Nat → Res ((Nat × Nat) × (Graph × Nat))
  | [], _, bounds, s => .ok (bounds, s)
  | p :: ps, isFirst, bounds, s => do
    let ((span, child, edge), (g, k)) ← parseValue f p s
    let lower := if isFirst then span.start else bounds.1
    let (g', _) ← g.addEdge parent child edge
    parseValues f parent ps false (lower, span.stop) (g', k)
end

/-- ptb.rs:90-97 `string_to_tree`. -/
def stringToTree (f : Format) (s : Str) : Res (Except Err Tree) :=
  match parsePairs s with
  | none => .ok (.error (.parse 10))
  | some p => do
    let ((_, root, _), (g, k)) ← parseValue f p (Graph.empty, 0)
    return .ok ⟨g, k, root, 0⟩

/-! ## Reader -/

/-- ptb.rs:340-352 `count_pars`. -/
def countPars (line : Str) : Nat × Nat := (line.count '(', line.count ')')

/-- ptb.rs:290-301, `PTBReader::next` for `SingleLine`.  The reader's state is the list of lines
left; for I/O errors see `Model/Io`. -/
def nextSingle (f : Format) : List Str → Res (Option (Except Err Tree) × List Str)
  | [] => .ok (none, [])
  | line :: rest =>
    if line.head? = some '%' then nextSingle f rest
    else do
      let r ← stringToTree f line
      return (some r, rest)

/-- ptb.rs:303-321, `PTBReader::next` for `MultiLine`; arguments `buffer` and `open` are the loop
state. -/
def nextMulti (f : Format) : List Str → Str → Nat → Res (Option (Except Err Tree) × List Str)
  | [], _, _ => .ok (none, [])
  | line :: rest, buffer, opened =>
    if (line.head? = some '%' ∧ buffer = []) ∨ line = [] then nextMulti f rest buffer opened
    else do
      let (lo, lc) := countPars line
      let opened ← Res.sub (opened + lo) lc
      let buffer := buffer ++ line
      if opened = 0 then do
        let r ← stringToTree f buffer
        return (some r, rest)
      else
        nextMulti f rest buffer opened

/-- ptb.rs:271-274 `enum PTBLineFormat`. -/
inductive LineFormat where
  | single
  | multi
deriving DecidableEq

/-- ptb.rs:289-323 `PTBReader::next`. -/
def readerNext (f : Format) (lf : LineFormat) (lines : List Str) :
    Res (Option (Except Err Tree) × List Str) :=
  match lf with
  | .single => nextSingle f lines
  | .multi => nextMulti f lines [] 0

/-- Iterating a `PTBReader` to exhaustion: the items produced. `fuel` bounds the number of `next`
calls; every call returning an item consumes a line. -/
def readAll (f : Format) (lf : LineFormat) : Nat → List Str → Res (List (Except Err Tree))
  | 0, _ => .diverge
  | fuel + 1, lines => do
    let (item, rest) ← readerNext f lf lines
    match item with
    | none => return []
    | some r => do
      let rs ← readAll f lf fuel rest
      return r :: rs

end Ptb
end Lumberjack
