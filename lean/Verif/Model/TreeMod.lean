import Verif.Model.Tree

/-!
# Model of `lumberjack/src/tree_modification.rs`
-/

namespace Lumberjack
namespace Tree

/-- tree_modification.rs:27-33, the loop of `annotate_pos`; the remaining tags are part of the
state. -/
def annotatePosLoop : List Nat → List Str → Tree → Res (Tree × Except Err (List Str))
  | [], tags, t => .ok (t, .ok tags)
  | n :: ns, tag :: tags, t => do
    let nd ← t.node n
    let tm ← Res.ofOption nd.terminal
    annotatePosLoop ns tags (t.setNode n (.term { tm with pos := tag }))
  | _ :: _, [], t => .ok (t, .error .notEnoughPos)

/-- tree_modification.rs:20-41 `AnnotatePOS::annotate_pos`; the iterator is a finite list. -/
def annotatePos (t : Tree) (tags : List Str) : Res (Tree × Except Err Unit) := do
  let (t', r) ← annotatePosLoop t.terminals tags t
  match r with
  | .error e => return (t', .error e)
  | .ok [] => return (t', .ok ())
  | .ok (_ :: _) => return (t', .error .tooManyPos)

/-- tree_modification.rs:143-156 `annotate_parent_tag`. -/
def annotateParentTag (t : Tree) (name : Str) : Res (Tree × Except Err Unit) :=
  forE (fun (t : Tree) n =>
    match t.parent n with
    | none => do
      let _ ← t.node n
      return (t, .error .terminalNoParent)
    | some (p, _) => do
      let pn ← t.node p
      let t' ← t.insertFeature n name pn.label
      return (t', .ok ())) t.terminals t

/-- tree_modification.rs:183-193, the inner loop of `insert_intermediate`. State: tree, visited
set, current inserted node, previous index. -/
def intermediateInner (label : Str) (s : Tree × Finset Nat × Nat × Nat) (c : Nat × Nat) :
    Res ((Tree × Finset Nat × Nat × Nat) × Except Err Unit) := do
  let (t, visited, ins, prev) := s
  let visited := insert c.1 visited
  let nd ← t.node c.1
  if nd.span.start = prev + 1 then do
    let (t', r) ← t.reattachNode ins c.2
    match r with
    | .ok _ => return ((t', visited, ins, prev + 1), .ok ())
    | .error e => return ((t', visited, ins, prev + 1), .error e)
  else do
    let (t', ins') ← t.insertUnaryAbove c.1 label
    return ((t', visited, ins', nd.span.start), .ok ())

/-- tree_modification.rs:173-177: the terminal children of `p` with their edges, sorted by span. -/
def termKids (t : Tree) (p : Nat) : List (Nat × Nat) :=
  ((t.children p).filter fun c => (t.graph.node? c.1).any Node.isTerminal).insertionSort fun c d =>
    (match t.graph.node? c.1, t.graph.node? d.1 with
      | some a, some b => a.span.cmp b.span
      | _, _ => .eq) ≠ .gt

/-- tree_modification.rs:165-195, the outer loop body of `insert_intermediate`. -/
def intermediateStep (f : Tree → Nat → Option Str) (s : Tree × Finset Nat) (terminal : Nat) :
    Res ((Tree × Finset Nat) × Except Err Unit) := do
  let (t, visited) := s
  if terminal ∈ visited then
    return ((t, visited), .ok ())
  else
    let visited := insert terminal visited
    match t.parent terminal with
    | none => do
      let _ ← t.node terminal
      return ((t, visited), .error .terminalNoParent)
    | some (p, _) =>
      match f t p with
      | none => return ((t, visited), .ok ())
      | some label => do
        match t.termKids p with
        | [] => .panic
        | (first, _) :: rest => do
          let (t1, ins) ← t.insertUnaryAbove first label
          let fn ← t1.node first
          let (s', r) ← forE (intermediateInner label) rest (t1, visited, ins, fn.span.start)
          return ((s'.1, s'.2.1), r)

/-- tree_modification.rs:158-197 `insert_intermediate`. -/
def insertIntermediate (t : Tree) (f : Tree → Nat → Option Str) : Res (Tree × Except Err Unit) := do
  let (s, r) ← forE (intermediateStep f) t.terminals (t, ∅)
  return (s.1, r)

/-- tree_modification.rs:199-214 `filter_nonterminals`. -/
def filterNonterminals (t : Tree) (f : Tree → Nat → Bool) : Res (Tree × Except Err Unit) :=
  forE (fun (t : Tree) n =>
    if !(f t n) then do
      let (t', r) ← t.removeNode n
      match r with
      | .ok _ => return (t', .ok ())
      | .error e => return (t', .error e)
    else
      .ok (t, .ok ())) (t.nonterminals.filter (· ≠ t.root)) t

/-- tree_modification.rs:225-231, the `while` loop of `reattach_terminals` removing the nodes that
would be left without children.  `fuel` bounds the number of iterations: the loop spins forever
once the climber is exhausted. -/
def detachLoop (fuel attachment terminal : Nat) (t : Tree) : Res Tree :=
  loopM (fun (s : Tree × Option (Nat × Nat)) =>
    if (s.1.siblings terminal).length = 0 then
      match s.1.climberNext s.2 with
      | (some (p, _), cur') =>
        if p ≠ s.1.root ∧ p ≠ attachment then do
          let (t', r) ← s.1.removeNode p
          let _ ← Res.unwrap r
          return .inl (t', cur')
        else
          .ok (.inl (s.1, cur'))
      | (none, cur') => .ok (.inl (s.1, cur'))
    else
      .ok (.inr s.1)) fuel (t, t.climberNew terminal)

/-- tree_modification.rs:222-235, the outer loop body of `reattach_terminals`. -/
def reattachTerminalStep (attachment : Nat) (f : Tree → Nat → Bool) (t : Tree) (terminal : Nat) :
    Res Tree := do
  if f t terminal then do
    let t1 ← detachLoop t.climbFuel attachment terminal t
    let (_, e) ← Res.ofOption (t1.parent terminal)
    let (t2, r) ← t1.reattachNode attachment e
    let _ ← Res.unwrap r
    return t2
  else
    return t

/-- tree_modification.rs:216-237 `reattach_terminals`. -/
def reattachTerminals (t : Tree) (attachment : Nat) (f : Tree → Nat → Bool) : Res Tree := do
  let t1 ← forM' (reattachTerminalStep attachment f) t.terminals t
  t1.resetNtSpans

/-- The feature key `"unary_chain"` (tree_modification.rs:273). -/
def unaryKey : Str := "unary_chain".toList

/-- tree_modification.rs:271-276: extend the `unary_chain` feature of `cur` by `label`. -/
def pushChain (delim : Str) (t : Tree) (cur : Nat) (label : Str) : Res Tree := do
  let nd ← t.node cur
  let fs := nd.featuresMut
  let chain := match fs.getVal unaryKey with
    | some (some chain) => chain ++ delim ++ label
    | _ => label
  return t.setNode cur (nd.setFeatures (some (fs.insert unaryKey (some chain)).1))

/-- tree_modification.rs:263-281, the climbing loop of `collapse_unary_chains` for one
terminal. -/
def collapseFrom (delim : Str) (t : Tree) (terminal : Nat) : Res Tree :=
  loopM (fun (s : Tree × Nat × Option (Nat × Nat)) =>
    match s.1.climberNext s.2.2 with
    | (some (n, _), cur') => do
      let nn ← s.1.node n
      let cn ← s.1.node s.2.1
      if nn.span = cn.span then do
        let (t', r) ← s.1.removeNode n
        let nd ← Res.unwrap r
        let t'' ← pushChain delim t' s.2.1 nd.label
        return .inl (t'', s.2.1, cur')
      else
        return .inl (s.1, n, cur')
    | (none, _) => .ok (.inr s.1)) t.climbFuel (t, terminal, t.climberNew terminal)

/-- tree_modification.rs:261-283 `collapse_unary_chains` (never returns `Err`). -/
def collapseUnaryChains (t : Tree) (delim : Str) : Res Tree :=
  forM' (collapseFrom delim) t.terminals t

/-- Drop a prefix, if it is one. -/
def stripPrefix : Str → Str → Option Str
  | [], s => some s
  | _ :: _, [] => none
  | p :: ps, x :: xs => if p = x then stripPrefix ps xs else none

/-- Rust `str::split(&str)` for a non-empty pattern: leftmost, non-overlapping matches.  (For the
empty pattern Rust splits around every character, modelled by `splitStr`.)  The fuel is the length
of the string. -/
def splitStrAux (delim : Str) : Nat → Str → Str → List Str
  | 0, acc, _ => [acc.reverse]
  | _ + 1, acc, [] => [acc.reverse]
  | fuel + 1, acc, x :: xs =>
    match stripPrefix delim (x :: xs) with
    | some rest => acc.reverse :: splitStrAux delim fuel [] rest
    | none => splitStrAux delim fuel (x :: acc) xs

/-- Rust `str::split(&str)`. -/
def splitStr (delim s : Str) : List Str :=
  if delim = [] then [] :: (s.map (fun c => [c]) ++ [[]])
  else splitStrAux delim (s.length + 1) [] s

/-- tree_modification.rs:287-297, the loop body of `restore_unary_chains` for one node.
`features_mut` initialises absent features, which is observable. -/
def restoreNode (delim : Str) (t : Tree) (n : Nat) : Res (Tree × Except Err Unit) := do
  let nd ← t.node n
  let (fs, removed) := nd.featuresMut.remove unaryKey
  let t1 := t.setNode n (nd.setFeatures (some fs))
  match removed with
  | some (some chain) => do
    let (t2, _) ← forM' (fun (s : Tree × Nat) label => s.1.insertUnaryAbove s.2 label)
      (splitStr delim chain) (t1, n)
    return (t2, .ok ())
  | some none => return (t1, .error .chainNoValue)
  | none => return (t1, .ok ())

/-- tree_modification.rs:285-299 `restore_unary_chains`. -/
def restoreUnaryChains (t : Tree) (delim : Str) : Res (Tree × Except Err Unit) :=
  forE (restoreNode delim) t.graph.nodeIndices t

/-- One entry of the list returned by `projectivize`: old parent, old edge, the moved node. -/
abbrev Move := Nat × Edge × Nat

/-- tree_modification.rs:330-345: climb from a skipped terminal to the first node covering the
attachment point, reattach the branch just below it. -/
def reattachSkipped (t : Tree) (ap terminal : Nat) (log : List Move) : Res (Tree × List Move) :=
  loopM (fun (s : Nat × Option (Nat × Nat)) =>
    match t.climberNext s.2 with
    | (some (p, e), cur') => do
      let pn ← t.node p
      let an ← t.node ap
      if pn.span.coversSpan an.span then do
        let (t', r) ← t.reattachNode ap e
        let (newEdge, old) ← Res.unwrap r
        return .inr ({ t' with graph := t'.graph.setEdge newEdge old }, log ++ [(p, old, s.1)])
      else
        return .inl (p, cur')
    | (none, _) => .ok (.inr (t, log))) t.climbFuel (terminal, t.climberNew terminal)

/-- tree_modification.rs:322-346, the loop filling the gaps of one node.  `pick` is the hash set's
choice of a first element; it depends on the history of the set, so it may differ from call to
call even for equal sets: it gets the current tree, which no two calls share. -/
def fillGaps (pick : Tree → Finset Nat → Option Nat) (terminals : List Nat) (ap fuel : Nat)
    (s : Tree × List Move) : Res (Tree × List Move) :=
  loopM (fun (s : Tree × List Move) => do
    let an ← s.1.node ap
    match an.span.skips.bind (pick s.1) with
    | some skipped => do
      let terminal ← Res.ofOption terminals[skipped]?
      let s' ← s.1.reattachSkipped ap terminal s.2
      return .inl s'
    | none => return .inr s) fuel s

/-- tree_modification.rs:310-357 `projectivize`. -/
def projectivize (pick : Tree → Finset Nat → Option Nat) (t : Tree) : Res (Tree × Option (List Move)) :=
  if !t.isProjective then do
    let terminals := t.sortIndices t.terminals
    let (t', log) ← loopM (fun (s : (Tree × List Move) × DfsPost) => do
      let (item, d) ← s.2.next s.1.1.graph
      match item with
      | some ap => do
        let s' ← fillGaps pick terminals ap (t.nTerminals + 1) s.1
        if s'.1.isProjective then return .inr s' else return .inl (s', d)
      | none => return .inr s.1) (t.graph.nodes.length + 2) ((t, []), DfsPost.new t.root)
    return (t', some log)
  else
    return (t, none)

end Tree
end Lumberjack
