import Verif.Model.Encode
import Verif.Model.Ptb

/-!
# Model of `lumberjack/src/io/negra.rs`
-/

namespace Lumberjack
namespace Negra

/-! ## Text helpers of the Rust standard library -/

/-- `char::is_whitespace`: the Unicode property `White_Space`. -/
def isWs (c : Char) : Bool :=
  let n := c.toNat
  (9 ≤ n && n ≤ 13) || n = 32 || n = 0x85 || n = 0xA0 || n = 0x1680 || (0x2000 ≤ n && n ≤ 0x200A)
    || n = 0x2028 || n = 0x2029 || n = 0x202F || n = 0x205F || n = 0x3000

/-- `str::trim`. -/
def trim (s : Str) : Str := ((s.dropWhile isWs).reverse.dropWhile isWs).reverse

/-- `str::split_whitespace`. -/
def splitWs : Str → List Str
  | [] => []
  | c :: cs =>
    if isWs c then splitWs cs
    else match cs with
      | [] => [[c]]
      | d :: _ =>
        if isWs d then [c] :: splitWs cs
        else match splitWs cs with
          | w :: ws => (c :: w) :: ws
          | [] => [[c]]

/-- One step of `str::splitn` by whitespace: text before the first whitespace character, and the
text after it if there is one. -/
def splitFirstWs : Str → Str × Option Str
  | [] => ([], none)
  | c :: cs =>
    if isWs c then ([], some cs)
    else let (a, b) := splitFirstWs cs; (c :: a, b)

/-- `s.splitn(3, char::is_whitespace)`. -/
def splitn3 (s : Str) : List Str :=
  match splitFirstWs s with
  | (a, none) => [a]
  | (a, some r) =>
    match splitFirstWs r with
    | (b, none) => [a, b]
    | (b, some r') => [a, b, r']

/-- `str::starts_with`. -/
def startsWith (p s : Str) : Bool := p.isPrefixOf s

/-- Number of bytes of the UTF-8 encoding, `str::len`. -/
def utf8Len (s : Str) : Nat := (s.map Char.utf8Size).sum

/-- Strip one trailing carriage return, as `BufRead::lines` does. -/
def stripCr (s : Str) : Str := if s.getLast? = some '\r' then s.dropLast else s

/-- `BufRead::lines` on a text: the text is split after each line feed; the line feed and one
carriage return before it are removed. A text not ending in a line feed has a last partial line. -/
def lines (s : Str) : List Str :=
  match splitOn '\n' s with
  | [] => []
  | parts => (parts.dropLast.map stripCr) ++
      (match parts.getLast? with
        | some [] => []
        | some l => [l]
        | none => [])

/-! ## Reader -/

def bos : Str := "#BOS".toList
def eos : Str := "#EOS".toList
def vroot : Str := "VROOT".toList
def sentenceIdKey : Str := "sentence_id".toList
def metadataKey : Str := "metadata".toList
def morphKey : Str := "morph".toList

/-- negra.rs:79-88 `struct Builder`. -/
structure Builder where
  ntIndices : List (Nat × Nat)
  graph : Graph
  nTerminals : Nat
  sentenceId : Str
  finishedTerminals : Bool
  numNonProjective : Nat
  processedNts : Nat
  secEdges : List (Nat × Str × Nat)

/-- negra.rs:298-300 `read_required_string_field`. -/
def strField : Option Str → Except Err Str
  | some s => .ok s
  | none => .error (.parse 20)

/-- negra.rs:302-308 `read_required_numerical_field`. -/
def numField : Option Str → Except Err Nat
  | some s => match parseUsize s with
    | some n => .ok n
    | none => .error (.parse 21)
  | none => .error (.parse 20)

/-- negra.rs:94-125 `Builder::from_header`. -/
def fromHeader (header : Str) : Res (Except Err Builder) := do
  let _ ← Res.assert (startsWith bos header)
  let parts := splitn3 header
  match numField parts[1]? with
  | .error e => return .error e
  | .ok id =>
    let idStr := Tree.natToStr id
    let fs := (Features.empty.insert sentenceIdKey (some idStr)).1
    let fs := match parts[2]? with
      | some m => (fs.insert metadataKey (some (trim m))).1
      | none => fs
    let (g, root) := Graph.empty.addNode (.nt ⟨vroot, some fs, Span.ofIdx 0⟩)
    return .ok ⟨[(0, root)], g, 0, idStr, false, 0, 1, []⟩

/-- `HashMap::get` on an association list. -/
def lookupIdx (m : List (Nat × Nat)) (k : Nat) : Option Nat := (m.find? (fun p => p.1 = k)).map (·.2)

/-- negra.rs:284-295 `parse_optional_fields`. -/
def optionalFields : List Str → Except Err (Option (Str × Nat))
  | [] => .ok none
  | part :: rest =>
    if startsWith ['%'] part then .ok none
    else match numField rest.head? with
      | .ok id => .ok (some (part, id))
      | .error e => .error e

/-- negra.rs:260-282 `process_edges`. -/
def processEdges (b : Builder) (n : Nat) (parts : List Str) : Res (Except Err Builder) :=
  match strField parts[0]? with
  | .error e => .ok (.error e)
  | .ok edge =>
    match numField parts[1]? with
    | .error e => .ok (.error e)
    | .ok pid => do
      let edge := if edge = Ptb.dashes then none else some edge
      let (b1, p) := match lookupIdx b.ntIndices pid with
        | some p => (b, p)
        | none =>
          let (g, p) := b.graph.addNode (.nt (NonTerminal.new [] (Span.ofIdx b.nTerminals)))
          ({ b with graph := g, ntIndices := b.ntIndices ++ [(pid, p)] }, p)
      let (g, _) ← b1.graph.addEdge p n (.primary edge)
      let b2 := { b1 with graph := g }
      match optionalFields (parts.drop 2) with
      | .error e => return .error e
      | .ok none => return .ok b2
      | .ok (some (label, id)) => return .ok { b2 with secEdges := b2.secEdges ++ [(id, label, n)] }

/-- negra.rs:232-258 `process_terminal_line`. -/
def terminalLine (b : Builder) (line : Str) : Res (Except Err Builder) :=
  if b.finishedTerminals then .ok (.error (.parse 22))
  else
    match splitWs line with
    | form :: lem :: pos :: morph :: rest => do
      let tm := Terminal.new form pos b.nTerminals
      let tm := if lem ≠ Ptb.dashes then { tm with lem := some lem } else tm
      let tm := if morph ≠ Ptb.dashes then
        { tm with features := some (Features.empty.insert morphKey (some morph)).1 } else tm
      let (g, n) := b.graph.addNode (.term tm)
      let r ← processEdges { b with graph := g } n rest
      match r with
      | .error e => return .error e
      | .ok b' => return .ok { b' with nTerminals := b'.nTerminals + 1 }
    | _ => .ok (.error (.parse 20))

/-- negra.rs:213-218: the indices covered by the primary children of a node. -/
def childCoverage (g : Graph) (n : Nat) : List Nat :=
  ((g.outEdges n).filter (·.w.isPrimary)).flatMap fun e =>
    match g.node? e.tgt with
    | some nd => nd.span.toVec
    | none => []

/-- negra.rs:182-225 `process_nonterminal_line`. -/
def nonterminalLine (b : Builder) (line : Str) : Res (Except Err Builder) :=
  if b.nTerminals = 0 then .ok (.error (.parse 23))
  else
    let b := { b with finishedTerminals := true, processedNts := b.processedNts + 1 }
    match splitWs line with
    | first :: rest =>
      match numField (some (first.drop 1)) with
      | .error e => .ok (.error e)
      | .ok selfId =>
        match lookupIdx b.ntIndices selfId with
        | none => .ok (.error (.parse 24))
        | some self =>
          match rest with
          | _ :: label :: more =>
            match splitOn '=' label with
            | [] => .panic
            | l :: anns => do
              let nd ← Res.ofOption (b.graph.node? self)
              let nd := nd.setLabel l
              let nd := match anns with
                | a :: _ => nd.setFeatures
                    (some (nd.featuresMut.insert Ptb.annotationKey (some a)).1)
                | [] => nd
              let b := { b with graph := b.graph.setNode self nd }
              match more with
              | [] => return .error (.parse 20)
              | _ :: edges => do
                let r ← processEdges b self edges
                match r with
                | .error e => return .error e
                | .ok b => do
                  let sp ← Span.fromVec (childCoverage b.graph self)
                  match sp with
                  | .error e => return .error e
                  | .ok span => do
                    let nd ← Res.ofOption (b.graph.node? self)
                    match nd.setSpan span with
                    | .error e => return .error e
                    | .ok nd' =>
                      return .ok { b with
                        graph := b.graph.setNode self nd'
                        numNonProjective :=
                          if span.skips.isSome then b.numNonProjective + 1 else b.numNonProjective }
          | _ => .ok (.error (.parse 20))
    | [] => .ok (.error (.parse 20))

/-- negra.rs:169-175 `process_line`. -/
def processLine (b : Builder) (line : Str) : Res (Except Err Builder) :=
  if startsWith ['#'] line then nonterminalLine b line else terminalLine b line

/-- negra.rs:147-153: add the secondary edges; `get(..).unwrap()` panics for unknown ids. -/
def addSecEdges (m : List (Nat × Nat)) : List (Nat × Str × Nat) → Graph → Res Graph
  | [], g => .ok g
  | (src, label, tgt) :: rest, g => do
    let s ← Res.ofOption (lookupIdx m src)
    let (g', _) ← g.addEdge s tgt (.secondary (some label))
    addSecEdges m rest g'

/-- negra.rs:132-166 `try_into_tree`. -/
def tryIntoTree (b : Builder) (footer : Str) : Res (Except Err Tree) := do
  let _ ← Res.assert (startsWith eos footer)
  match strField (splitWs footer)[1]? with
  | .error e => return .error e
  | .ok id =>
    if id ≠ b.sentenceId then return .error (.parse 25)
    else do
      let g ← addSecEdges b.ntIndices b.secEdges b.graph
      let root ← Res.ofOption (lookupIdx b.ntIndices 0)
      if b.processedNts ≠ b.ntIndices.length then return .error (.parse 26)
      else do
        let span ← Span.new 0 b.nTerminals
        let nd ← Res.ofOption (g.node? root)
        match nd.setSpan span with
        | .error e => return .error e
        | .ok nd' => return .ok ⟨g.setNode root nd', b.nTerminals, root, b.numNonProjective⟩

/-- negra.rs:43-75 `NegraReader::next`; the argument `cur` is the loop variable. -/
def nextFrom : List Str → Option Builder → Res (Option (Except Err Tree) × List Str)
  | [], _ => .ok (none, [])
  | raw :: rest, cur =>
    let line := trim raw
    if startsWith bos line then
      match cur with
      | some _ => .ok (some (.error (.parse 27)), rest)
      | none => do
        let r ← fromHeader line
        match r with
        | .ok b => nextFrom rest (some b)
        | .error e => return (some (.error e), rest)
    else if startsWith eos line then
      match cur with
      | some b => do
        let r ← tryIntoTree b line
        return (some r, rest)
      | none => .ok (some (.error (.parse 28)), rest)
    else
      match cur with
      | some b => do
        let r ← processLine b line
        match r with
        | .ok b' => nextFrom rest (some b')
        | .error e => return (some (.error e), rest)
      | none => nextFrom rest none

/-- negra.rs:43 `NegraReader::next`. -/
def readerNext (ls : List Str) : Res (Option (Except Err Tree) × List Str) := nextFrom ls none

/-- Iterating a `NegraReader` to exhaustion. Every call returning an item consumes a line, so
`ls.length + 1` calls suffice. -/
def readAll : Nat → List Str → Res (List (Except Err Tree))
  | 0, _ => .diverge
  | fuel + 1, ls => do
    let (item, rest) ← readerNext ls
    match item with
    | none => return []
    | some r => do
      let rs ← readAll fuel rest
      return r :: rs

/-! ## Writer -/

/-- negra.rs:333-341 `pad`. -/
def pad (len width : Nat) : Str :=
  if len ≥ width + 8 then [' '] else List.replicate (width + 8 - len) ' '

/-- negra.rs:346-364 `terminal_to_negra_line`. -/
def terminalRep (tm : Terminal) : Str :=
  let lem := tm.lem.getD Ptb.dashes
  let morph := ((tm.features.bind fun f => f.getVal morphKey).bind id).getD Ptb.dashes
  tm.form ++ pad (utf8Len tm.form) 24 ++ lem ++ pad (utf8Len lem) 24
    ++ tm.pos ++ pad (utf8Len tm.pos) 8 ++ morph ++ pad (utf8Len morph) 16

/-- negra.rs:369-389 `nonterminal_to_negra_line`. -/
def nonterminalRep (id : Str) (nt : NonTerminal) : Str :=
  let label := nt.label ++ (match Ptb.annotation nt with | some a => '=' :: a | none => [])
  ['#'] ++ id ++ pad (utf8Len id + 1) 24 ++ Ptb.dashes ++ pad 2 24
    ++ label ++ pad (utf8Len label) 8 ++ Ptb.dashes ++ pad 2 16

/-- `HashMap::get` for the id map of the writer. -/
def lookupId (m : List (Nat × Str)) (k : Nat) : Option Str := (m.find? (fun p => p.1 = k)).map (·.2)

/-- negra.rs:392-407 `get_parent_edge`. -/
def parentEdgeRep (t : Tree) (ids : List (Nat × Str)) (n : Nat) : Res Str := do
  let (p, e) ← Res.ofOption (t.parent n)
  let ed ← t.edge e
  let rep := ed.label.getD Ptb.dashes
  let id ← Res.ofOption (lookupId ids p)
  let rep := rep ++ pad (utf8Len rep) 8 ++ id
  match t.secondaryParent n with
  | some (sp, se) => do
    let sed ← t.edge se
    let label := sed.label.getD Ptb.dashes
    let sid ← Res.ofOption (lookupId ids sp)
    return rep ++ pad (utf8Len id) 8 ++ label ++ pad (utf8Len label) 8 ++ sid
  | none => return rep

/-- negra.rs:443-450: visit all terminals; collect the parents having only terminal children. -/
def initialQueue (t : Tree) : List Nat → List Nat
  | [] => []
  | n :: ns =>
    match t.parent n with
    | some (p, _) =>
      if (t.children p).all (fun c => (t.graph.node? c.1).any Node.isTerminal)
      then p :: initialQueue t ns else initialQueue t ns
    | none => initialQueue t ns

/-- State of the numbering loop: queue, visited nodes, id map, nonterminals in order, next id. -/
structure NumState where
  queue : List Nat
  visited : Finset Nat
  ids : List (Nat × Str)
  nts : List Nat
  count : Nat

/-- negra.rs:454-466, one iteration of the numbering loop. -/
def numberStep (t : Tree) (s : NumState) : Res (NumState ⊕ NumState) :=
  match s.queue with
  | [] => .ok (.inr s)
  | n :: queue =>
    if n ∈ s.visited ∨ t.root = n then
      .ok (.inl { s with queue := queue, visited := insert n s.visited })
    else
      let visited := insert n s.visited
      let queue := match t.parent n with
        | some (p, _) =>
          if (t.children p).all (fun c => decide (c.1 ∈ visited)) then p :: queue else queue
        | none => queue
      .ok (.inl ⟨queue, visited, s.ids ++ [(n, Tree.natToStr s.count)], s.nts ++ [n], s.count + 1⟩)

/-- negra.rs:433-466: number the nonterminals. Every iteration pops a queue element; at most one is
pushed per newly visited node. -/
def number (t : Tree) (terminals : List Nat) : Res NumState :=
  let q := initialQueue t terminals
  loopM (numberStep t) (q.length + t.graph.nodes.length + 1)
    ⟨q, terminals.toFinset, [(t.root, ['0'])], [], 500⟩

/-- negra.rs:468-476: lines of the terminals. -/
def terminalLines (t : Tree) (ids : List (Nat × Str)) : List Nat → Res (List Str)
  | [] => .ok []
  | n :: ns => do
    let nd ← t.node n
    let tm ← Res.ofOption nd.terminal
    let e ← parentEdgeRep t ids n
    let rest ← terminalLines t ids ns
    return (terminalRep tm ++ e) :: rest

/-- negra.rs:478-491: lines of the nonterminals. -/
def nonterminalLines (t : Tree) (ids : List (Nat × Str)) : List Nat → Res (List Str)
  | [] => .ok []
  | n :: ns => do
    let id ← Res.ofOption (lookupId ids n)
    let nd ← t.node n
    let nt ← Res.ofOption nd.nonterminal
    let e ← parentEdgeRep t ids n
    let rest ← nonterminalLines t ids ns
    return (nonterminalRep id nt ++ e) :: rest

/-- `writeln!`. -/
def unlines (ls : List Str) : Str := ls.flatMap fun l => l ++ ['\n']

/-- negra.rs:415-423: the sentence id and the new counter. -/
def sentenceId (t : Tree) (counter : Nat) : Res (Str × Nat) := do
  let rn ← t.node t.root
  match rn.featVal sentenceIdKey with
  | some id => return (id, counter)
  | none => return (Tree.natToStr counter, counter + 1)

/-- negra.rs:414-496 `write_tree`: the text written and the new counter; for I/O errors see `Model/Io`
(here writing to memory). -/
def writeTree (counter : Nat) (t : Tree) : Res (Str × Nat) := do
  let (id, counter') ← sentenceId t counter
  let rn ← t.node t.root
  let header := match rn.featVal metadataKey with
    | some m => bos ++ [' '] ++ id ++ [' ', ' '] ++ m
    | none => bos ++ [' '] ++ id
  let terminals := t.sortIndices t.terminals
  let s ← number t terminals
  let tl ← terminalLines t s.ids terminals
  let nl ← nonterminalLines t s.ids s.nts
  return (unlines (header :: (tl ++ nl ++ [eos ++ [' '] ++ id, []])), counter')

/-- Writing several trees with one writer. -/
def writeTrees : Nat → List Tree → Res Str
  | _, [] => .ok []
  | counter, t :: ts => do
    let (s, c) ← writeTree counter t
    let rest ← writeTrees c ts
    return s ++ rest

end Negra
end Lumberjack
