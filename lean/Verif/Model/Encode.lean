import Verif.Model.TreeMod

/-!
# Model of `lumberjack/src/io/encode.rs`
-/

namespace Lumberjack

/-! ## Numbers as text -/

/-- ASCII digit value. -/
def digitVal (c : Char) : Option Nat :=
  if '0' ≤ c ∧ c ≤ '9' then some (c.toNat - '0'.toNat) else none

/-- Value of a non-empty string of digits. -/
def parseDigits : Nat → Str → Option Nat
  | acc, [] => some acc
  | acc, c :: cs => match digitVal c with
    | some d => parseDigits (acc * 10 + d) cs
    | none => none

/-- The optional leading `+` that integer parsing accepts. -/
def stripPlus : Str → Str
  | '+' :: rest => rest
  | s => s

/-- `str::parse::<usize>()` on a 64-bit target: optional `+`, at least one digit, no overflow. -/
def parseUsize (s : Str) : Option Nat :=
  if stripPlus s = [] then none
  else match parseDigits 0 (stripPlus s) with
    | some n => if n < 2 ^ 64 then some n else none
    | none => none

/-- `str::parse::<isize>()` on a 64-bit target. -/
def parseIsize (s : Str) : Option Int :=
  match s with
  | '-' :: ds =>
    match ds with
    | [] => none
    | _ => match parseDigits 0 ds with
      | some n => if n ≤ 2 ^ 63 then some (-(n : Int)) else none
      | none => none
  | _ =>
    match parseUsize s with
    | some n => if n < 2 ^ 63 then some (n : Int) else none
    | none => none

/-- `isize::to_string`. -/
def intToStr : Int → Str
  | .ofNat n => Tree.natToStr n
  | .negSucc n => '-' :: Tree.natToStr (n + 1)

/-- Rust `str::rfind(c)` followed by a split: text before and after the last occurrence. -/
def rsplitOnce (c : Char) : Str → Option (Str × Str)
  | [] => none
  | x :: xs =>
    match rsplitOnce c xs with
    | some (a, b) => some (x :: a, b)
    | none => if x = c then some ([], xs) else none

/-! ## Ancestors and encodings -/

/-- encode.rs:333-336 `struct AbsoluteAncestor`. -/
structure AbsAncestor where
  common : Nat
  label : Str
deriving DecidableEq

/-- encode.rs:389-392 `enum RelativeAncestor`. -/
inductive RelAncestor where
  | regular (offset : Int) (label : Str)
  | root (label : Str)
deriving DecidableEq

/-- encode.rs:440 `struct AbsoluteEncoding`. -/
abbrev AbsEncoding := List (Option AbsAncestor × Option Str)

/-- encode.rs:624 `struct RelativeEncoding`. -/
abbrev RelEncoding := List (Option RelAncestor × Option Str)

/-- encode.rs:337-341 `ToString for AbsoluteAncestor`. -/
def AbsAncestor.toStr (a : AbsAncestor) : Str := a.label ++ ['+'] ++ Tree.natToStr a.common

/-- encode.rs:371-385 `TryFrom<&str> for AbsoluteAncestor`. -/
def AbsAncestor.parse (s : Str) : Except Err AbsAncestor :=
  match splitOn '+' s with
  | label :: offset :: _ =>
    match parseUsize offset with
    | some n => .ok ⟨n, label⟩
    | none => .error (.parse 0)
  | _ => .error (.parse 1)

/-- encode.rs:406-413 `ToString for RelativeAncestor`. -/
def RelAncestor.toStr : RelAncestor → Str
  | .regular offset label => label ++ ['+'] ++ intToStr offset
  | .root label => label

/-- encode.rs:415-431 `TryFrom<&str> for RelativeAncestor`. -/
def RelAncestor.parse (s : Str) : Except Err RelAncestor :=
  match splitOn '+' s with
  | label :: rest =>
    if label = [] then .error (.parse 2)
    else match rest with
      | offset :: _ =>
        match parseIsize offset with
        | some n => .ok (.regular n label)
        | none => .error (.parse 3)
      | [] => .ok (.root label)
  | [] => .error (.parse 2)

/-! ## Encoding -/

/-- `node.features().and_then(|f| f.get_val(key)).and_then(|val| val.map(..))`. -/
def Node.featVal (n : Node) (key : Str) : Option Str :=
  (n.features.bind (fun f => f.getVal key)).bind id

namespace Tree

/-- encode.rs:176-196: the body of the loop in `get_common`. State: climber, label found so far,
count. -/
def commonStep (t : Tree) (idx : Nat) (s : Option (Nat × Nat) × Option Str × Nat) :
    Res ((Option (Nat × Nat) × Option Str × Nat) ⊕ Except Err (Option (Str × Nat))) :=
  match t.climberNext s.1 with
  | (some (p, _), cur') => do
    let pn ← t.node p
    if pn.span.skips.isSome then
      return .inr (.error .nonProjective)
    else if pn.span.contains (idx + 1) = true ∧ s.2.1 = none then
      match pn with
      | .term _ => return .inr (.error .terminalNoParent)
      | .nt x =>
        let label := match (Node.nt x).featVal unaryKey with
          | some chain => chain ++ ['_'] ++ x.label
          | none => x.label
        return .inl (cur', some label, s.2.2 + 1)
    else if s.2.1.isSome then
      return .inl (cur', s.2.1, s.2.2 + 1)
    else
      return .inl (cur', s.2.1, s.2.2)
  | (none, _) => .ok (.inr (.ok (s.2.1.map fun l => (l, s.2.2))))

/-- encode.rs:171-200 `get_common`. -/
def getCommon (t : Tree) (terminal : Nat) : Res (Except Err (Option (Str × Nat))) := do
  let tn ← t.node terminal
  loopM (t.commonStep tn.span.start) t.climbFuel (t.climberNew terminal, none, 0)

/-- encode.rs:68-77, the loop of `encode_absolute`. -/
def encodeAbsLoop (t : Tree) : List Nat → AbsEncoding → Res (Except Err AbsEncoding)
  | [], acc => .ok (.ok acc)
  | n :: ns, acc => do
    let r ← t.getCommon n
    match r with
    | .error e => return .error e
    | .ok c => do
      let nd ← t.node n
      encodeAbsLoop t ns
        (acc ++ [(c.map fun (l, k) => ⟨k, l⟩, nd.featVal unaryKey)])

/-- encode.rs:61-79 `encode_absolute`. -/
def encodeAbsolute (t : Tree) : Res (Except Err AbsEncoding) :=
  if !t.isProjective then .ok (.error .nonProjective)
  else encodeAbsLoop t (t.sortIndices t.terminals) []

/-- encode.rs:116-120, 146-150: the relative ancestor for a common ancestor found `n` deep. -/
def relAncestor (prevN : Int) (label : Str) (n : Nat) : RelAncestor :=
  if n = 1 then .root label else .regular ((n : Int) - prevN) label

/-- encode.rs:113-132, the loop of `encode_relative`. -/
def encodeRelLoop (t : Tree) : List Nat → Int → RelEncoding → Res (Except Err RelEncoding)
  | [], _, acc => .ok (.ok acc)
  | n :: ns, prevN, acc => do
    let r ← t.getCommon n
    match r with
    | .error e => return .error e
    | .ok (some (l, k)) => do
      let nd ← t.node n
      encodeRelLoop t ns k (acc ++ [(some (relAncestor prevN l k), nd.featVal unaryKey)])
    | .ok none => do
      let nd ← t.node n
      encodeRelLoop t ns prevN (acc ++ [(none, nd.featVal unaryKey)])

/-- encode.rs:105-134 `encode_relative`. -/
def encodeRelative (t : Tree) : Res (Except Err RelEncoding) :=
  if !t.isProjective then .ok (.error .nonProjective)
  else encodeRelLoop t (t.sortIndices t.terminals) 0 []

/-- The marker `"NONE"` (encode.rs:90, 154). -/
def noneMarker : Str := "NONE".toList

/-- encode.rs:91-96, 156-161: append the leaf chain after `~`. -/
def withChain (rep : Str) (chain : Option Str) : Str :=
  match chain with
  | some c => rep ++ ['~'] ++ c
  | none => rep

/-- encode.rs:87-101, the loop body of `annotate_absolute`. -/
def annotateAbsStep (t : Tree) (n : Nat) : Res (Tree × Except Err Unit) := do
  let r ← t.getCommon n
  match r with
  | .error e => return (t, .error e)
  | .ok c => do
    let rep := match c with
      | some (l, k) => AbsAncestor.toStr ⟨k, l⟩
      | none => noneMarker
    let nd ← t.node n
    let t' ← t.insertFeature n "abs_ancestor".toList (withChain rep (nd.featVal unaryKey))
    return (t', .ok ())

/-- encode.rs:81-103 `annotate_absolute`. -/
def annotateAbsolute (t : Tree) : Res (Tree × Except Err Unit) :=
  if !t.isProjective then .ok (t, .error .nonProjective)
  else forE annotateAbsStep (t.sortIndices t.terminals) t

/-- encode.rs:143-165, the loop body of `annotate_relative`. -/
def annotateRelStep (s : Tree × Int) (n : Nat) : Res ((Tree × Int) × Except Err Unit) := do
  let r ← s.1.getCommon n
  match r with
  | .error e => return (s, .error e)
  | .ok c => do
    let (rep, prevN) := match c with
      | some (l, k) => ((relAncestor s.2 l k).toStr, (k : Int))
      | none => (noneMarker, s.2)
    let nd ← s.1.node n
    let t' ← s.1.insertFeature n "rel_ancestor".toList (withChain rep (nd.featVal unaryKey))
    return ((t', prevN), .ok ())

/-- encode.rs:136-167 `annotate_relative`. -/
def annotateRelative (t : Tree) : Res (Tree × Except Err Unit) :=
  if !t.isProjective then .ok (t, .error .nonProjective)
  else do
    let (s, r) ← forE annotateRelStep (t.sortIndices t.terminals) (t, 0)
    return (s.1, r)

end Tree

/-! ## Converting between the two scales -/

/-- encode.rs:540-546 `struct RelativeToAbsoluteError`. -/
structure RelToAbsError where
  rest : RelEncoding
  prevN : Int
  leafUnary : Option Str
  label : Str
  abs : AbsEncoding
deriving DecidableEq

/-- encode.rs:509-514 `enum ConversionResult`. -/
inductive ConversionResult where
  | success (e : AbsEncoding)
  | error (e : RelToAbsError)
deriving DecidableEq

/-- encode.rs:466-490, the loop of `try_from_relative`. `n_common as usize` of a positive number is
the number itself. -/
def tryFromRelLoop : RelEncoding → Int → AbsEncoding → ConversionResult
  | [], _, acc => .success acc
  | (some (.regular offset label), leaf) :: rest, prevN, acc =>
    let n := offset + prevN
    if n < 1 then .error ⟨rest, prevN, leaf, label, acc⟩
    else tryFromRelLoop rest n (acc ++ [(some ⟨n.toNat, label⟩, leaf)])
  | (some (.root label), leaf) :: rest, _, acc =>
    tryFromRelLoop rest 1 (acc ++ [(some ⟨1, label⟩, leaf)])
  | (none, leaf) :: rest, prevN, acc => tryFromRelLoop rest prevN (acc ++ [(none, leaf)])

/-- encode.rs:462-492 `AbsoluteEncoding::try_from_relative`. -/
def tryFromRelative (e : RelEncoding) : ConversionResult := tryFromRelLoop e 0 []

/-- encode.rs:559-577, the loop of `fix`. -/
def fixLoop : RelEncoding → Int → AbsEncoding → AbsEncoding
  | [], _, acc => acc
  | (some (.regular offset label), leaf) :: rest, prevN, acc =>
    let n := if offset + prevN < 1 then 2 else offset + prevN
    fixLoop rest n (acc ++ [(some ⟨n.toNat, label⟩, leaf)])
  | (some (.root label), leaf) :: rest, _, acc =>
    fixLoop rest 1 (acc ++ [(some ⟨1, label⟩, leaf)])
  | (none, leaf) :: rest, prevN, acc => fixLoop rest prevN (acc ++ [(none, leaf)])

/-- encode.rs:555-580 `RelativeToAbsoluteError::fix`. -/
def RelToAbsError.fix (e : RelToAbsError) : AbsEncoding :=
  fixLoop e.rest 2 (e.abs ++ [(some ⟨2, e.label⟩, e.leafUnary)])

/-- encode.rs:520-525 `ConversionResult::unwrap_or_fix`. -/
def ConversionResult.unwrapOrFix : ConversionResult → AbsEncoding
  | .success e => e
  | .error e => e.fix

/-- encode.rs:587-600, the loop of `From<AbsoluteEncoding> for RelativeEncoding`. -/
def relFromAbsLoop : AbsEncoding → Int → RelEncoding → RelEncoding
  | [], _, acc => acc
  | (some a, leaf) :: rest, prevN, acc =>
    let offset := (a.common : Int) - prevN
    relFromAbsLoop rest a.common
      (acc ++ [(some (if a.common = 1 then .root a.label else .regular offset a.label), leaf)])
  | (none, leaf) :: rest, prevN, acc => relFromAbsLoop rest prevN (acc ++ [(none, leaf)])

/-- encode.rs:583-603 `From<AbsoluteEncoding> for RelativeEncoding`. -/
def relFromAbs (e : AbsEncoding) : RelEncoding := relFromAbsLoop e 0 []

/-! ## Decoding -/

namespace Tree

/-- encode.rs:24 `EMPTY_NODE`. -/
def dummy : Str := "DUMMY".toList

/-- `graph.neighbors_directed(n, Outgoing)`: all edges, newest first. -/
def outNeighbors (g : Graph) (n : Nat) : List Nat := (g.outEdges n).map (·.tgt)

/-- encode.rs:256-265: descend `k` times to the newest nonterminal child. -/
def descend (g : Graph) : Nat → Nat → Nat
  | 0, cur => cur
  | k + 1, cur =>
    match (outNeighbors g cur).find? (fun n => (g.node? n).any (fun x => !x.isTerminal)) with
    | some n => descend g k n
    | none => cur

/-- encode.rs:270-286: walk down to depth `n_common`, creating dummy nodes where needed.
`i` is the loop counter, `left` the number of iterations left. -/
def descendOrInsert (idx prevN : Nat) : (left i : Nat) → Graph → Nat → Res (Graph × Nat)
  | 0, _, g, cur => .ok (g, cur)
  | left + 1, i, g, cur => do
    let child := match (outNeighbors g cur).head? with
      | some n => if (g.node? n).any (fun x => !x.isTerminal) then some n else none
      | none => none
    match child with
    | some n =>
      if i > prevN then do
        let (g1, new) := g.addNode (.nt (NonTerminal.new dummy (Span.ofIdx idx)))
        let (g2, _) ← g1.addEdge cur new (.primary none)
        descendOrInsert idx prevN left (i + 1) g2 new
      else
        descendOrInsert idx prevN left (i + 1) g n
    | none => do
      let (g1, new) := g.addNode (.nt (NonTerminal.new dummy (Span.ofIdx idx)))
      let (g2, _) ← g1.addEdge cur new (.primary none)
      descendOrInsert idx prevN left (i + 1) g2 new

/-- encode.rs:289-297: put the (possibly chained) label on a node. -/
def setCommonLabel (g : Graph) (cur : Nat) (common : Str) : Res Graph := do
  let nd ← Res.ofOption (g.node? cur)
  match rsplitOnce '_' common with
  | some (chain, label) =>
    let nd1 := nd.setLabel label
    return g.setNode cur (nd1.setFeatures (some (nd1.featuresMut.insert unaryKey (some chain)).1))
  | none => return g.setNode cur (nd.setLabel common)

/-- State of the loop in `decode`: graph, root, previous attachment point, `prev_n`. -/
structure DecState where
  graph : Graph
  root : Nat
  prev : Option Nat
  prevN : Nat

/-- encode.rs:234-309, the loop of `decode` over the zipped and enumerated input. -/
def decodeLoop (nTerminals : Nat) :
    List (((Option AbsAncestor × Option Str) × Terminal) × Nat) → DecState → Res DecState
  | [], s => .ok s
  | (((ancestor, chain), terminal), idx) :: rest, s => do
    let term := match chain with
      | some c => (Node.term terminal).setFeatures
          (some ((Node.term terminal).featuresMut.insert unaryKey (some c)).1)
      | none => Node.term terminal
    let (g1, ti) := s.graph.addNode term
    match ancestor with
    | none =>
      if nTerminals = 1 then
        -- `graph.remove_node(root_idx)` ignores a missing node; then `break`
        match g1.removeNode s.root with
        | some (g2, _) => return { s with graph := g2, root := ti }
        | none => return { s with graph := g1, root := ti }
      else do
        let cur := descend g1 s.prevN s.root
        let (g2, _) ← g1.addEdge cur ti (.primary none)
        decodeLoop nTerminals rest { s with graph := g2 }
    | some a => do
      let (g2, cur) ← descendOrInsert idx s.prevN (a.common - 1) 1 g1 s.root
      let g3 ← setCommonLabel g2 cur a.label
      let target := match s.prev with
        | none => cur
        | some p => if a.common > s.prevN then cur else p
      let (g4, _) ← g3.addEdge target ti (.primary none)
      let k ← Res.sub a.common 1
      decodeLoop nTerminals rest { s with graph := g4, prev := some cur, prevN := k }

/-- encode.rs:226-314 `Decode::decode`. -/
def decode (encoding : AbsEncoding) (terminals : List Terminal) : Res Tree := do
  let (g, root) := Graph.empty.addNode (.nt (NonTerminal.new dummy (Span.ofIdx 0)))
  let s ← decodeLoop terminals.length (encoding.zip terminals).zipIdx ⟨g, root, none, 0⟩
  (⟨s.graph, terminals.length, s.root, 0⟩ : Tree).resetNtSpans

/-- encode.rs:316-328 `remove_dummy_nodes`. -/
def removeDummyNodes (t : Tree) : Res (Tree × Except Err Unit) := do
  let (t1, r) ← t.filterNonterminals fun t n => (t.graph.node? n).any (fun x => x.label ≠ dummy)
  match r with
  | .error e => return (t1, .error e)
  | .ok () => do
    let rn ← t1.node t1.root
    let isDummy := match rn.nonterminal with
      | some x => decide (x.label = dummy)
      | none => false
    if isDummy = true ∧ (t1.children t1.root).length = 1 then do
      let (t2, r) ← t1.removeNode t1.root
      match r with
      | .ok _ => return (t2, .ok ())
      | .error e => return (t2, .error e)
    else
      return (t1, .ok ())

end Tree
end Lumberjack
