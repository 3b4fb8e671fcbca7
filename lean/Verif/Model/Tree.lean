import Verif.Model.Graph

/-!
# Model of `lumberjack/src/tree.rs` and `lumberjack/src/util.rs`

Methods taking `&mut self` return the tree they leave behind.  A method with signature
`fn f(&mut self, ..) -> Result<T, Error>` is modelled with type `Res (Tree × Except Err T)`.
Closures passed by the user are pure total functions of the tree and a node index.
-/

namespace Lumberjack

/-- tree.rs:18-23 `struct Tree`. -/
structure Tree where
  graph : Graph
  nTerminals : Nat
  root : Nat
  numDisc : Nat
deriving DecidableEq

namespace Tree

/-! ## Reading -/

/-- tree.rs:815-821 `Index<NodeIndex>`: panics if the node is absent. -/
def node (t : Tree) (n : Nat) : Res Node := Res.ofOption (t.graph.node? n)

/-- tree.rs:823-829 `Index<EdgeIndex>`: panics if the edge is absent. -/
def edge (t : Tree) (e : Nat) : Res Edge := Res.ofOption ((t.graph.edge? e).map (·.w))

/-- tree.rs:831-835 `IndexMut<NodeIndex>`, overwriting an existing node. -/
def setNode (t : Tree) (n : Nat) (nd : Node) : Tree := { t with graph := t.graph.setNode n nd }

/-- tree.rs:58-62 `terminals`. -/
def terminals (t : Tree) : List Nat :=
  t.graph.nodeIndices.filter fun i => (t.graph.node? i).any Node.isTerminal

/-- tree.rs:65-69 `nonterminals`. -/
def nonterminals (t : Tree) : List Nat :=
  t.graph.nodeIndices.filter fun i => (t.graph.node? i).any (fun n => !n.isTerminal)

/-- tree.rs:75-82 `parent`: the first incoming primary edge. -/
def parent (t : Tree) (n : Nat) : Option (Nat × Nat) :=
  ((t.graph.inEdges n).find? (fun r => r.w.isPrimary)).map fun r => (r.src, r.id)

/-- tree.rs:88-95 `secondary_parent`. -/
def secondaryParent (t : Tree) (n : Nat) : Option (Nat × Nat) :=
  ((t.graph.inEdges n).find? (fun r => !r.w.isPrimary)).map fun r => (r.src, r.id)

/-- tree.rs:98-106 `children`. -/
def children (t : Tree) (n : Nat) : List (Nat × Nat) :=
  ((t.graph.outEdges n).filter (fun r => r.w.isPrimary)).map fun r => (r.tgt, r.id)

/-- tree.rs:109-117 `secondary_children`. -/
def secondaryChildren (t : Tree) (n : Nat) : List (Nat × Nat) :=
  ((t.graph.outEdges n).filter (fun r => !r.w.isPrimary)).map fun r => (r.tgt, r.id)

/-- tree.rs:373-385 `siblings`. -/
def siblings (t : Tree) (n : Nat) : List (Nat × Nat) :=
  match t.parent n with
  | some (p, _) => (t.children p).filter fun c => c.1 ≠ n
  | none => []

/-- tree.rs:395-400 `are_siblings`: compares (parent, edge) pairs. -/
def areSiblings (t : Tree) (a b : Nat) : Bool :=
  match t.parent a, t.parent b with
  | some p1, some p2 => decide (p1 = p2)
  | _, _ => false

/-- tree.rs:408-410 `is_projective`. -/
def isProjective (t : Tree) : Bool := t.numDisc = 0

/-- Iteration budget for loops climbing from a node: a path without repetition visits each node
slot at most once. -/
def climbFuel (t : Tree) : Nat := t.graph.nodes.length + 1

/-! ## Climber (util.rs:17-56) -/

/-- util.rs:23-26 `Climber::new`: the climber's state is the next (node, edge) to return. -/
def climberNew (t : Tree) (n : Nat) : Option (Nat × Nat) := t.parent n

/-- util.rs:32-39, 48-55 `Climber::next` / `next_with_edge`: item returned and new state. -/
def climberNext (t : Tree) (cur : Option (Nat × Nat)) : Option (Nat × Nat) × Option (Nat × Nat) :=
  match cur with
  | some (node, edge) => (some (node, edge), t.parent node)
  | none => (none, none)

/-- All nodes a climber started at `n` returns, in order: `while let Some(x) = climber.next(&tree)`
run to exhaustion on an unchanging tree. -/
def climb (t : Tree) (n : Nat) : Res (List Nat) :=
  loopM (fun (s : Option (Nat × Nat) × List Nat) =>
    match t.climberNext s.1 with
    | (some (x, _), cur') => .ok (.inl (cur', s.2 ++ [x]))
    | (none, _) => .ok (.inr s.2)) t.climbFuel (t.climberNew n, [])

/-! ## Sorting (tree.rs:742-764) -/

/-- Rust `str::cmp`: lexicographic. -/
def cmpStr (a b : Str) : Ordering := compareOfLessAndEq a b

/-- tree.rs:744-762, the comparison closure of `sort_indices`.  Absent nodes (where the code would
panic) compare equal; every caller passes live nodes. -/
def cmpNodes (t : Tree) (a b : Nat) : Ordering :=
  match t.graph.node? a, t.graph.node? b with
  | some na, some nb =>
    match na.span.cmp nb.span with
    | .eq =>
      match na, nb with
      | .nt _, .term _ => .gt
      | .term _, .nt _ => .lt
      | .nt x, .nt y =>
        let order := compare (t.children a).length (t.children b).length
        if order ≠ .eq then order else cmpStr x.label y.label
      | .term x, .term y => cmpStr x.form y.form
    | o => o
  | _, _ => .eq

/-- tree.rs:742-764 `sort_indices`: `Vec::sort_by`, a stable sort. -/
def sortIndices (t : Tree) (l : List Nat) : List Nat :=
  l.insertionSort fun a b => t.cmpNodes a b ≠ .gt

/-! ## Equality (tree.rs:768-813) -/

/-- tree.rs:768-799 `subtree_eq`.  The first argument bounds the recursion depth (on a cyclic graph
the code overflows the stack). -/
def subtreeEq (t1 t2 : Tree) : Nat → Nat → Nat → Res Bool
  | 0, _, _ => .diverge
  | fuel + 1, i1, i2 =>
    let n1 := t1.sortIndices ((t1.children i1).map (·.1))
    let n2 := t2.sortIndices ((t2.children i2).map (·.1))
    (n1.zip n2).foldlM (init := true) fun acc p =>
      if !acc then .ok false
      else do
        let a ← t1.node p.1
        let b ← t2.node p.2
        if !(a.eq b) then return false
        let p1 ← match t1.parent p.1 with
          | some (q, e) => do
            let x ← t1.node q
            let y ← t1.edge e
            pure (some (x, y))
          | none => pure none
        let p2 ← match t2.parent p.2 with
          | some (q, e) => do
            let x ← t2.node q
            let y ← t2.edge e
            pure (some (x, y))
          | none => pure none
        let same := match p1, p2 with
          | some (x, e), some (y, f) => x.eq y && decide (e = f)
          | none, none => true
          | _, _ => false
        if !same then return false
        subtreeEq t1 t2 fuel p.1 p.2

/-- tree.rs:801-813 `PartialEq for Tree`. -/
def eq (t1 t2 : Tree) : Res Bool :=
  if t1.nTerminals ≠ t2.nTerminals then .ok false
  else if t1.graph.nodeCount ≠ t2.graph.nodeCount then .ok false
  else subtreeEq t1 t2 t1.climbFuel t1.root t2.root

/-! ## Construction and secondary edges -/

/-- tree.rs:35-45 `Tree::new`. -/
def new (form pos : Str) : Tree :=
  let (g, root) := Graph.empty.addNode (.term (Terminal.new form pos 0))
  ⟨g, 1, root, 0⟩

/-- tree.rs:120-131 `add_secondary_edge`. -/
def addSecondaryEdge (t : Tree) (p c : Nat) (label : Option Str) : Res (Tree × Nat) := do
  let (g, e) ← t.graph.addEdge p c (.secondary label)
  return ({ t with graph := g }, e)

/-- tree.rs:136-142 `remove_secondary_edge`. -/
def removeSecondaryEdge (t : Tree) (e : Nat) : Res (Tree × Option Edge) := do
  let w ← t.edge e
  if !w.isPrimary then
    match t.graph.removeEdge e with
    | some (g, w') => return ({ t with graph := g }, some w')
    | none => return (t, none)
  else
    return (t, none)

/-! ## Changing the attributes of nodes and edges -/

/-- The public setters of nodes: node.rs:103-108 `set_label`, 131-136 `set_features`, 372-374
`Terminal::set_form`, 416-421 `Terminal::set_lemma`.  The last two are reached through
`terminal_mut`, node.rs:83-88, which is `None` for nonterminals: nothing happens. -/
inductive Attr where
  | label (s : Str)
  | features (f : Option Features)
  | form (s : Str)
  | lem (s : Option Str)

/-- Applying a setter. -/
def Attr.apply : Attr → Node → Node
  | .label s, nd => nd.setLabel s
  | .features f, nd => nd.setFeatures f
  | .form s, .term x => .term { x with form := s }
  | .form _, .nt x => .nt x
  | .lem s, .term x => .term { x with lem := s }
  | .lem _, .nt x => .nt x

/-- tree.rs:831-835 `IndexMut<NodeIndex>` followed by a setter. -/
def editNode (t : Tree) (n : Nat) (a : Attr) : Res Tree := do
  let nd ← t.node n
  return t.setNode n (a.apply nd)

/-- tree.rs:837-841 `IndexMut<EdgeIndex>` followed by edge.rs:60-68 `set_label`. -/
def setEdgeLabel (t : Tree) (e : Nat) (l : Option Str) : Res Tree := do
  let w ← t.edge e
  return { t with graph := t.graph.setEdge e (w.setLabel l) }

/-! ## Spans -/

/-- tree.rs:584-591 `projectivity_change`. -/
def projectivityChange (t : Tree) (before after : Continuity) : Res Tree :=
  match before, after with
  | .continuous, .discontinuous => .ok { t with numDisc := t.numDisc + 1 }
  | .discontinuous, .continuous => do
    let n ← Res.sub t.numDisc 1
    return { t with numDisc := n }
  | _, _ => .ok t

/-- tree.rs:721-731, the loop body of `reset_nt_spans`: recompute one node's span from its
children. -/
def resetNode (t : Tree) (n : Nat) : Res Tree := do
  let nd ← t.node n
  match nd with
  | .term _ => return t
  | .nt x => do
    let coverage ← (t.children n).foldlM (init := ([] : List Nat)) fun acc c => do
      let cn ← t.node c.1
      return acc ++ cn.span.toVec
    let r ← Span.fromVec coverage
    let span ← Res.unwrap r
    let disc := if span.skips.isSome then t.numDisc + 1 else t.numDisc
    return { t.setNode n (.nt { x with span := span }) with numDisc := disc }

/-- tree.rs:717-733 `reset_nt_spans`. -/
def resetNtSpans (t : Tree) : Res Tree :=
  loopM (fun (s : Tree × DfsPost) => do
    let (item, d) ← s.2.next s.1.graph
    match item with
    | some n => do
      let t' ← s.1.resetNode n
      return .inl (t', d)
    | none => return .inr s.1) (t.graph.nodes.length + 2)
    ({ t with numDisc := 0 }, DfsPost.new t.root)

/-- tree.rs:707-714 `compact_terminal_spans`. -/
def compactTerminalSpans (t : Tree) : Res (Tree × Except Err Unit) :=
  forE (fun (t : Tree) (p : Nat × Nat) => do
    let nd ← t.node p.1
    match nd.setSpan (Span.ofIdx p.2) with
    | .ok nd' => return (t.setNode p.1 nd', .ok ())
    | .error e => return (t, .error e)) (t.sortIndices t.terminals).zipIdx t

/-! ## Terminals -/

/-- tree.rs:160-172, the loop body of `move_terminal`. -/
def moveStep (oldPos index : Nat) (t : Tree) (x : Nat) : Res Tree := do
  let nd ← t.node x
  let tm ← Res.ofOption nd.terminal
  let pos := tm.idx
  if oldPos ≤ pos ∧ pos ≤ index then do
    let p ← Res.sub pos 1
    return t.setNode x (.term (tm.setIdx p))
  else if index ≤ pos ∧ pos ≤ oldPos then
    return t.setNode x (.term (tm.setIdx (pos + 1)))
  else
    return t

/-- tree.rs:149-175 `move_terminal`. -/
def moveTerminal (t : Tree) (terminal index : Nat) : Res Tree := do
  let nd ← t.node terminal
  if nd.span.start = index then
    return t
  else do
    Res.assert nd.isTerminal
    Res.assert (index < t.nTerminals)
    let t1 ← forM' (moveStep nd.span.start index) (t.terminals.filter (· ≠ terminal)) t
    let nd1 ← t1.node terminal
    let nd2 ← Res.unwrap (nd1.setSpan (Span.ofIdx index))
    (t1.setNode terminal nd2).resetNtSpans

/-- tree.rs:191-199, the loop body of `insert_terminal`. -/
def insertStep (index : Nat) (t : Tree) (x : Nat) : Res Tree := do
  let nd ← t.node x
  let tm ← Res.ofOption nd.terminal
  if tm.idx ≥ index then
    return t.setNode x (.term (tm.setIdx (tm.idx + 1)))
  else
    return t

/-- tree.rs:183-206 `insert_terminal`. -/
def insertTerminal (t : Tree) (parent : Nat) (terminal : Terminal) : Res (Tree × Nat) := do
  let pn ← t.node parent
  Res.assert (!pn.isTerminal)
  let index := terminal.span.start
  Res.assert (index ≤ t.nTerminals)
  let t1 ← forM' (insertStep index) t.terminals t
  let (g1, new) := t1.graph.addNode (.term terminal)
  let (g2, _) ← g1.addEdge parent new (.primary none)
  let t2 ← ({ t1 with graph := g2 } : Tree).resetNtSpans
  return ({ t2 with nTerminals := t2.nTerminals + 1 }, new)

/-- tree.rs:225-243 `push_terminal`. -/
def pushTerminal (t : Tree) (form pos : Str) : Res (Tree × Except Err Nat) := do
  let rn ← t.node t.root
  if rn.isTerminal then
    return (t, .error .rootIsTerminal)
  else do
    let (g1, new) := t.graph.addNode (.term (Terminal.new form pos t.nTerminals))
    let (g2, _) ← g1.addEdge t.root new (.primary none)
    let t2 : Tree := { t with graph := g2, nTerminals := t.nTerminals + 1 }
    let rn2 ← t2.node t2.root
    let rn3 ← Res.unwrap rn2.extendSpan
    return (t2.setNode t2.root rn3, .ok new)

/-! ## Unary nodes -/

/-- tree.rs:248-268 `insert_unary_above`. -/
def insertUnaryAbove (t : Tree) (child : Nat) (label : Str) : Res (Tree × Nat) := do
  let cn ← t.node child
  let (g1, insert) := t.graph.addNode (.nt (NonTerminal.new label cn.span))
  match ({ t with graph := g1 } : Tree).parent child with
  | some (p, e) => do
    let (g2, old) ← Res.ofOption (g1.removeEdge e)
    let (g3, _) ← g2.addEdge p insert (.primary none)
    let (g4, _) ← g3.addEdge insert child old
    return ({ t with graph := g4 }, insert)
  | none => do
    let (g2, _) ← g1.addEdge insert child (.primary none)
    return ({ t with graph := g2, root := if child = t.root then insert else t.root }, insert)

/-- tree.rs:277-301 `insert_unary_below`. -/
def insertUnaryBelow (t : Tree) (n : Nat) (label : Str) : Res (Tree × Except Err Nat) := do
  let nd ← t.node n
  if nd.isTerminal then
    return (t, .error .attachToTerminal)
  else do
    let children := t.children n
    let (g1, insert) := t.graph.addNode (.nt (NonTerminal.new label nd.span))
    let (g2, _) ← g1.addEdge n insert (.primary none)
    let g3 ← forM' (fun (g : Graph) (c : Nat × Nat) => do
      let (g', _) ← Res.ofOption (g.removeEdge c.2)
      let (g'', _) ← g'.addEdge insert c.1 (.primary none)
      return g'') children g2
    return ({ t with graph := g3 }, .ok insert)

/-! ## Removal -/

/-- tree.rs:678-682, the end of `remove_nonterminal`. -/
def finishRemove (t : Tree) (n : Nat) : Res (Tree × Except Err Node) := do
  let (g, nd) ← Res.ofOption (t.graph.removeNode n)
  let t' : Tree := { t with graph := g }
  if nd.span.skips.isSome then do
    let k ← Res.sub t'.numDisc 1
    return ({ t' with numDisc := k }, .ok nd)
  else
    return (t', .ok nd)

/-- tree.rs:661-683 `remove_nonterminal`. -/
def removeNonterminal (t : Tree) (n : Nat) : Res (Tree × Except Err Node) := do
  let nd ← t.node n
  Res.assert (!nd.isTerminal)
  match t.parent n with
  | some (p, _) => do
    let g ← forM' (fun (g : Graph) (c : Nat × Nat) => do
      let (g', _) ← g.addEdge p c.1 (.primary none)
      return g') (t.children n) t.graph
    ({ t with graph := g } : Tree).finishRemove n
  | none =>
    match t.children t.root with
    | [(c, _)] => ({ t with root := c } : Tree).finishRemove n
    | _ => return (t, .error .rootMultiple)

/-- tree.rs:688-700 `remove_terminal`. -/
def removeTerminal (t : Tree) (n : Nat) : Res (Tree × Except Err Node) := do
  let nd ← t.node n
  Res.assert nd.isTerminal
  if (t.siblings n).length = 0 then
    return (t, .error .lastTerminal)
  else do
    let (t1, r) ← t.compactTerminalSpans
    match r with
    | .error e => return (t1, .error e)
    | .ok () => do
      let t2 ← t1.resetNtSpans
      let k ← Res.sub t2.nTerminals 1
      let (g, nd) ← Res.ofOption (t2.graph.removeNode n)
      return ({ t2 with nTerminals := k, graph := g }, .ok nd)

/-- tree.rs:319-329 `remove_node`. -/
def removeNode (t : Tree) (n : Nat) : Res (Tree × Except Err Node) := do
  Res.assert (t.graph.contains n)
  let nd ← t.node n
  if nd.isTerminal then t.removeTerminal n else t.removeNonterminal n

/-! ## Reattachment -/

/-- tree.rs:614-621: remove `coverage` from the span of one node on the path. -/
def removeCoverage (coverage : List Nat) (t : Tree) (n : Nat) : Res Tree := do
  let nd ← t.node n
  let x ← Res.ofOption nd.nonterminal
  let (sp, after) ← x.span.removeIndices coverage
  (t.setNode n (.nt { x with span := sp })).projectivityChange nd.continuity after

/-- tree.rs:605-624 of `reattach_primary`: climb from the old parent; when the new parent is met,
remove the child's indices from all nodes on the path. -/
def detachSpans (t : Tree) (newParent parent child : Nat) : Res Tree :=
  loopM (fun (s : Option (Nat × Nat) × List Nat) =>
    match t.climberNext s.1 with
    | (some (x, _), cur') =>
      let path := s.2 ++ [x]
      if newParent = x then do
        let cn ← t.node child
        let t' ← forM' (removeCoverage cn.span.toVec) path t
        return .inr t'
      else
        .ok (.inl (cur', path))
    | (none, _) => .ok (.inr t)) t.climbFuel (t.climberNew parent, [parent])

/-- tree.rs:631-645 of `reattach_primary`: climb from the child, merging its span into every
ancestor that does not cover it yet. -/
def attachSpans (t : Tree) (child : Nat) (childSpan : Span) : Res Tree :=
  loopM (fun (s : Option (Nat × Nat) × Tree) =>
    match s.2.climberNext s.1 with
    | (some (x, _), cur') => do
      let nd ← s.2.node x
      if nd.span.coversSpan childSpan then
        return .inr s.2
      else do
        let nt ← Res.ofOption nd.nonterminal
        let sp ← nt.span.mergeSpans childSpan
        let t' ← (s.2.setNode x (.nt { nt with span := sp })).projectivityChange
          nd.continuity sp.continuity
        return .inl (cur', t')
    | (none, _) => .ok (.inr s.2)) t.climbFuel (t.climberNew child, t)

/-- tree.rs:593-647 `reattach_primary`. -/
def reattachPrimary (t : Tree) (newParent e : Nat) : Res (Tree × Except Err (Nat × Edge)) := do
  let r ← Res.ofOption (t.graph.edge? e)
  let np ← t.node newParent
  if np.isTerminal then
    return (t, .error .attachToTerminal)
  else if (t.siblings r.tgt).length = 0 ∧ r.src ≠ newParent then
    return (t, .error .lastChild)
  else do
    let t1 ← t.detachSpans newParent r.src r.tgt
    let (g2, old) ← Res.ofOption (t1.graph.removeEdge e)
    let (g3, e') ← g2.addEdge newParent r.tgt (.primary none)
    let t3 : Tree := { t1 with graph := g3 }
    let cn ← t3.node r.tgt
    let t4 ← t3.attachSpans r.tgt cn.span
    return (t4, .ok (e', old))

/-- tree.rs:649-656 `reattach_secondary`. -/
def reattachSecondary (t : Tree) (newParent e : Nat) : Res (Tree × (Nat × Edge)) := do
  let r ← Res.ofOption (t.graph.edge? e)
  let (g2, old) ← Res.ofOption (t.graph.removeEdge e)
  let (g3, e') ← g2.addEdge newParent r.tgt (.secondary none)
  return ({ t with graph := g3 }, (e', old))

/-- tree.rs:346-370 `reattach_node`. -/
def reattachNode (t : Tree) (newParent e : Nat) : Res (Tree × Except Err (Nat × Edge)) := do
  Res.assert (t.graph.contains newParent)
  let r ← Res.ofOption (t.graph.edge? e)
  if r.tgt = newParent then
    return (t, .error .selfParent)
  else
    match r.w with
    | .primary _ => t.reattachPrimary newParent e
    | .secondary _ => do
      let (t', x) ← t.reattachSecondary newParent e
      return (t', .ok x)

/-! ## Descendants -/

/-- tree.rs:388-390, 843-876 `descendent_terminals`, run to exhaustion. -/
def descendentTerminals (t : Tree) (n : Nat) : Res (List Nat) :=
  loopM (fun (s : Dfs × List Nat) =>
    match Dfs.next t.graph s.1 with
    | (some x, d) => do
      let nd ← t.node x
      return .inl (d, if nd.isTerminal then s.2 ++ [x] else s.2)
    | (none, _) => .ok (.inr s.2)) (t.graph.nodes.length + 2) (Dfs.new n, [])

/-! ## Projections onto terminals -/

/-- tree.rs:431-437, the climbing loop of `project_nt_indices` for one terminal: the closest
matching ancestor. -/
def closestMatch (t : Tree) (f : Tree → Nat → Bool) (n : Nat) : Res (Option Nat) :=
  loopM (fun (cur : Option (Nat × Nat)) =>
    match t.climberNext cur with
    | (some (x, _), cur') => if f t x then .ok (.inr (some x)) else .ok (.inl cur')
    | (none, _) => .ok (.inr none)) t.climbFuel (t.climberNew n)

/-- tree.rs:423-440 `project_nt_indices`. -/
def projectNtIndices (t : Tree) (f : Tree → Nat → Bool) : Res (List Nat) :=
  forM' (fun (indices : List Nat) terminal => do
    let m ← t.closestMatch f terminal
    match m with
    | some p => do
      let nd ← t.node terminal
      Res.assert (nd.span.start < indices.length)
      return indices.set nd.span.start p
    | none => return indices) (t.sortIndices t.terminals) (List.replicate t.nTerminals t.root)

/-- tree.rs:479-492 `map_climber_path` with a closure carrying state `σ` and possibly mutating the
tree; `fuel` bounds the number of ancestors visited per terminal. -/
def mapClimberPath {σ : Type} (fuel : Nat) (f : σ → Tree → Nat → Nat → Res (σ × Tree × Bool))
    (s : σ) (t : Tree) : Res (σ × Tree) :=
  forM' (fun (s : σ × Tree) terminal =>
    loopM (fun (x : (σ × Tree) × Option (Nat × Nat)) =>
      match x.1.2.climberNext x.2 with
      | (some (p, _), cur') => do
        -- the climber has already moved past `p` when the closure runs
        let (s', t', stop) ← f x.1.1 x.1.2 p terminal
        if stop then return .inr (s', t') else return .inl ((s', t'), cur')
      | (none, _) => .ok (.inr x.1)) fuel (s, s.2.climberNew terminal)) t.terminals (s, t)

/-- `tree[n].features_mut().insert(name, Some(value))`. -/
def insertFeature (t : Tree) (n : Nat) (name value : Str) : Res Tree := do
  let nd ← t.node n
  return t.setNode n (nd.setFeatures (some (nd.featuresMut.insert name (some value)).1))

/-- tree.rs:512-525 `project_tag_set`. -/
def projectTagSet (t : Tree) (name : Str) (f : Tree → Nat → Bool) : Res Tree := do
  let (_, t') ← mapClimberPath t.climbFuel (fun (_ : Unit) t p terminal =>
    if f t p then do
      let nd ← t.node p
      let t' ← t.insertFeature terminal name nd.label
      return ((), t', true)
    else
      .ok ((), t, false)) () t
  return t'

/-- Decimal digits of a number (`usize::to_string`). -/
def natToStr (n : Nat) : Str := (Nat.toDigits 10 n)

/-- tree.rs:548-565 `project_ids`; the hash map is its list of keys in insertion order (the id of a
key is its position). -/
def projectIds (t : Tree) (name : Str) (f : Tree → Nat → Bool) : Res Tree := do
  let (_, t') ← mapClimberPath t.climbFuel (fun (keys : List Nat) t p terminal =>
    if f t p then do
      let keys' := if p ∈ keys then keys else keys ++ [p]
      let t' ← t.insertFeature terminal name (natToStr (keys'.idxOf p))
      return (keys', t', true)
    else
      .ok (keys, t, false)) [] t
  return t'

end Tree
end Lumberjack
