import Verif.Model.Conllx
import Verif.Model.Negra
import Verif.Model.NodeApi

/-!
# The repository's own unit tests, run on the model

Nothing here is a property and nothing here is listed in MANIFEST.json: these are tests, on the
literals the repository uses, of whether the *model* behaves as the code does.  Each `example` is
one `#[test]` function of /repo (named in its comment) with its assertions in their order, and the
kernel evaluates the model on it.  A definition of the model that departs from the code on one of
those inputs makes the build fail.

`ok x` is "the run ends normally with `true`"; `fails x` is `#[should_panic]` around `.unwrap()`:
a panic or an `Err`.
-/

namespace Lumberjack.Validation

abbrev s (x : String) : Str := x.toList

def ok : Res Bool → Bool
  | .ok b => b
  | _ => false

def panics {α : Type} : Res α → Bool
  | .panic => true
  | _ => false

/-- `.unwrap()` of a `Result`. -/
def unwrap {α : Type} (r : Res (Except Err α)) : Res α := do
  match ← r with
  | .ok a => return a
  | .error _ => .panic

/-- `.unwrap()` of the `Result` of a method taking `&mut self`. -/
def unwrapMut {σ α : Type} (r : Res (σ × Except Err α)) : Res (σ × α) := do
  match ← r with
  | (t, .ok a) => return (t, a)
  | (_, .error _) => .panic

def isErr {σ α : Type} (r : Res (σ × Except Err α)) : Res Bool := do
  match ← r with
  | (_, .ok _) => return false
  | (_, .error _) => return true

def get {α : Type} : Option α → Res α := Res.ofOption

def simple (x : String) : Res Tree := unwrap (Ptb.stringToTree .simple (s x))
def tueba (x : String) : Res Tree := unwrap (Ptb.stringToTree .tueba (s x))

def shows (t : Tree) (x : String) : Res Bool := do
  return (← unwrap (Ptb.treeToString .simple t)) == s x

def push (t : Tree) (form pos : String) : Res (Tree × Nat) :=
  unwrapMut (t.pushTerminal (s form) (s pos))

def tm (form pos : String) (i : Nat) : Terminal := Terminal.new (s form) (s pos) i

/-- node.rs:241-265: comparison with `==`. -/
def isNode (n : Res Node) (m : Node) : Res Bool := do return (← n).eq m

/-! ## span.rs -/

-- span.rs:293-303 `invalid_cont_span_2_1`, `invalid_skip_span_2_1`
example : panics (Span.new 2 1) := by decide +kernel
-- span.rs:305-312 `invalid_skip_full_span`
example : panics (Span.newWithSkips 0 2 {0, 1}) := by decide +kernel
-- span.rs:314-324 `simple_test`
example : ok (do
    let span ← Span.newWithSkips 0 4 {1, 2}
    return span.start == 0 && span.stop == 4 && span.bounds == (0, 4) && span.toVec == [0, 3]) := by
  decide +kernel
-- span.rs:326-338 `contains_skipspan`
example : ok (do
    let span ← Span.newWithSkips 0 10 {3, 5}
    return span.contains 0 && span.contains 1 && span.contains 2 && !span.contains 3 &&
      span.contains 4 && !span.contains 5 && span.contains 6 && !span.contains 10) := by
  decide +kernel
-- span.rs:340-352 `remove_indices`
example : ok (do
    let span ← Span.newWithSkips 0 10 {3, 5}
    let (clone, c) ← span.removeIndices [0, 1, 2, 3, 4]
    let (clone', c') ← clone.removeIndices [7]
    return c == .continuous && clone == (← unwrap (Span.fromVec [6, 7, 8, 9])) &&
      c' == .discontinuous && clone' == (← unwrap (Span.fromVec [6, 8, 9]))) := by decide +kernel
-- span.rs:353-359 `remove_all_indices`
example : panics (do
    let span ← Span.newWithSkips 0 10 {3, 5}
    span.removeIndices [0, 1, 2, 3, 4, 5, 6, 7, 8, 9]) := by decide +kernel
-- span.rs:361-391 `merge_spans`
example : ok (do
    let span ← Span.newWithSkips 0 10 {3, 5}
    let (other, c) ← span.removeIndices [6]
    let other ← other.mergeSpans span
    let same := other == span
    let newSpan ← unwrap (Span.fromVec [3, 5])
    let other ← other.mergeSpans newSpan
    let filled := other.skips.isNone && other == (← unwrap (Span.fromVec [0, 1, 2, 3, 4, 5, 6, 7, 8, 9]))
    let skip ← unwrap (Span.fromVec [15, 16, 17, 18, 19])
    let other ← other.mergeSpans skip
    return c == .discontinuous && same && filled && other.skips.isSome &&
      other == (← unwrap (Span.fromVec ((List.range 20).filter fun i => i < 10 || i ≥ 15)))) := by
  decide +kernel
-- span.rs:393-431 `covers_span`
example : ok (do
    let span ← Span.newWithSkips 0 10 {3, 5}
    let a := span.coversSpan (.ofIdx 0) && span.coversSpan (.ofIdx 1) &&
      !span.coversSpan (.ofIdx 3) && !span.coversSpan (.ofIdx 10)
    let other ← Span.newWithSkips 0 10 {3, 5}
    let b := span.coversSpan other && other.coversSpan span
    let other ← Span.newWithSkips 6 10 {7, 8}
    let c := span.coversSpan other && !other.coversSpan span
    let other ← Span.newWithSkips 0 10 {3, 4, 5}
    let d := span.coversSpan other && !other.coversSpan span
    let other ← Span.newWithSkips 0 10 {3, 4}
    let e := !span.coversSpan other && !other.coversSpan span
    let other ← Span.newWithSkips 0 10 {3}
    let f := !span.coversSpan other && other.coversSpan span
    return a && b && c && d && e && f) := by decide +kernel
-- span.rs:433-453 `contains_no_skips`, `contains_span`
example : ok (do
    let span ← Span.new 0 10
    return span.contains 0 && span.contains 1 && span.contains 2 && span.contains 4 &&
      span.contains 6 && !span.contains 10) := by decide +kernel
-- span.rs:455-482 `test_from_ordered_vec`, `test_from_vec_duplicates`, `test_from_vec_single`
example : ok (do return (← unwrap (Span.fromVec [1, 2, 4, 6, 8, 10])).toVec == [1, 2, 4, 6, 8, 10]) := by
  decide +kernel
example : ok (do return (← unwrap (Span.fromVec [1, 4, 2, 4, 6, 8, 8, 10])).toVec == [1, 2, 4, 6, 8, 10]) := by
  decide +kernel
example : ok (do return (← unwrap (Span.fromVec [1])).toVec == [1]) := by decide +kernel
-- span.rs:484-487 `test_empty_vec`
example : panics (unwrap (Span.fromVec [])) := by decide +kernel
-- span.rs:489-500 `test_from_vec`
example : ok (do
    let span ← unwrap (Span.fromVec [1, 3])
    return span.skips.isSome && span.toVec == [1, 3]) := by decide +kernel

/-! ## features.rs -/

-- features.rs:112-139 `features_test`
example :
    let features := Features.parse (s "key:value|some_feature|another:one")
    let (f1, r1) := features.remove (s "some_feature")
    let (f2, r2) := f1.remove (s "nonsense")
    features.entries = (Features.ofList
      [(s "key", some (s "value")), (s "some_feature", none), (s "another", some (s "one"))]).entries ∧
    features.toStr = s "another:one|key:value|some_feature" ∧
    features.getVal (s "some_feature") = some none ∧
    features.getVal (s "key") = some (some (s "value")) ∧
    r1 = some none ∧ r2 = none ∧ f2.getVal (s "nonsense") = none ∧
    f2.entries = (Features.ofList [(s "key", some (s "value")), (s "another", some (s "one"))]).entries ∧
    (f2.insert (s "key") none).2 = some (s "value") := by decide +kernel

/-! ## util.rs -/

-- util.rs:106-124 `climber_test`
example : ok (do
    let tree ← tueba "(NX (NN Nounphrase) (PX (PP on) (NX (DET a) (ADJ single) (NX line))))"
    let (r, _) := tree.climberNext (tree.climberNew tree.root)
    let on ← get tree.terminals[1]?
    let (px, c) := tree.climberNext (tree.climberNew on)
    let (nx, c) := tree.climberNext c
    let (none', _) := tree.climberNext c
    let px ← tree.node (← get px).1
    let nx ← tree.node (← get nx).1
    return r.isNone && !px.isTerminal && px.label == s "PX" && !nx.isTerminal && nx.label == s "NX" &&
      none'.isNone) := by decide +kernel

/-! ## node.rs -/

-- node.rs:434-465 `node_terminal`
example : ok (do
    let n := Node.term (tm "form" "pos" 0)
    let a := n.isTerminal && n.terminal.isSome && n.nonterminal.isNone
    let e := match n.extendSpan with | .error _ => true | .ok _ => false
    let (n, l) := n.replaceLabel (s "other_pos")
    let b := l == s "pos" && n.label == s "other_pos"
    let (n, f) ← get (n.onTerminal (·.setFeatures (some (Features.parse (s "morph")))))
    let c := f.isNone && n.features.map (·.entries) == some (Features.parse (s "morph")).entries
    let (n, l) ← get (n.onTerminal (·.setLemma (some (s "lemma"))))
    let d := l == none && (n.terminal.map (·.lemma?)) == some (some (s "lemma"))
    let (n, l) ← get (n.onTerminal (·.setForm (s "other_form")))
    return a && e && b && c && d && l == s "form" && n.terminal.map (·.form) == some (s "other_form") &&
      n.display == s "other_pos other_form") := by decide +kernel
-- node.rs:467-497 `node_nonterminal`
example : ok (do
    let n := Node.nt (NonTerminal.new (s "label") (.ofIdx 0))
    let a := !n.isTerminal && n.terminal.isNone && n.nonterminal.isSome
    let (n, l) := n.replaceLabel (s "other_label")
    let b := l == s "label" && n.label == s "other_label"
    let (n, old) ← get (n.onNonTerminal (·.setSpan (.ofIdx 3)))
    let c := old == .ofIdx 0 && n.span == .ofIdx 3
    let n ← (match n.extendSpan with | .ok n => .ok n | .error _ => .panic)
    let d := n.span == (← Span.new 3 5)
    let (n, f) := n.openFeatures
    let (f, old) := f.insert (s "some") (some (s "feature"))
    let n := (n.replaceFeatures (some f)).1
    return a && b && c && d && old == none &&
      (n.features.bind (·.getVal (s "some"))) == some (some (s "feature")) &&
      n.display == s "other_label") := by decide +kernel

/-! ## tree.rs -/

def tree0 : String := "(ROOT (FIRST (TERM1 t1) (TERM2 t2)) (TERM3 t3) (SECOND (TERM4 t4)) (TERM5 t5))"

/-- tree.rs:1408-1421 `some_tree`. -/
def someTree : Res Tree := do
  let tree := Tree.new (s "t1") (s "TERM1")
  let (tree, _) ← tree.insertUnaryAbove tree.root (s "ROOT")
  let (tree, _) ← push tree "t2" "TERM2"
  let (tree, _) ← unwrapMut (tree.insertUnaryBelow tree.root (s "FIRST"))
  let (tree, _) ← push tree "t3" "TERM3"
  let (tree, t4) ← push tree "t4" "TERM4"
  let (tree, _) ← tree.insertUnaryAbove t4 (s "SECOND")
  let (tree, _) ← push tree "t5" "TERM5"
  return tree

-- tree.rs:925-941 `construct_tree`
example : ok (do (← simple tree0).eq (← someTree)) := by decide +kernel
-- tree.rs:943-963 `reset_spans`
example : ok (do
    let t ← someTree
    let sp ← unwrap (Span.fromVec [0, 2])
    let wrong ← t.nonterminals.foldlM (init := t) fun t n => do
      return t.setNode n ((← t.node n).replaceSpan sp)
    (← wrong.resetNtSpans).eq t) := by decide +kernel
example : ok (do
    let t ← someTree
    let wrong ← (t.terminals.zipIdx).foldlM (init := t) fun t (n, i) => do
      match (← t.node n).setSpan (.ofIdx (i + 1)) with
      | .ok nd => return t.setNode n nd
      | .error _ => .panic
    let (t', _) ← unwrapMut wrong.compactTerminalSpans
    t'.eq t) := by decide +kernel

def terminalFeatures (t : Tree) : Res (List Str) :=
  t.terminals.mapM fun n => do return (← get (← t.node n).features).toStr

/-- `tree[nt].label() == label` -/
def labelled (label : String) (t : Tree) (n : Nat) : Bool :=
  ((t.graph.node? n).map (·.label)) == some (s label)

-- tree.rs:965-992 `project_node_labels`
example : ok (do
    let t := Tree.new (s "t1") (s "TERM1")
    let t1 := t.root
    let (t, _) ← t.insertUnaryAbove t1 (s "ROOT")
    let (t, first) ← t.insertUnaryAbove t1 (s "FIRST")
    let (t, _) ← push t "t2" "TERM2"
    let (t, _) ← t.insertTerminal first (tm "t3" "TERM" 2)
    let (t, t4) ← push t "t4" "TERM4"
    let (t, second) ← t.insertUnaryAbove t4 (s "SECOND")
    let (t, _) ← t.insertTerminal second (tm "t4" "TERM4" 4)
    let t ← t.projectTagSet (s "proj") fun t n => labelled "FIRST" t n || n == t.root
    return (← terminalFeatures t) ==
      [s "proj:FIRST", s "proj:ROOT", s "proj:FIRST", s "proj:ROOT", s "proj:ROOT"]) := by decide +kernel
-- tree.rs:994-1008 `project_node_indices_nonprojective`
example : ok (do
    let t := Tree.new (s "t1") (s "TERM1")
    let t1 := t.root
    let (t, root) ← t.insertUnaryAbove t1 (s "ROOT")
    let (t, first) ← t.insertUnaryAbove t1 (s "FIRST")
    let (t, _) ← push t "t2" "TERM2"
    let (t, _) ← t.insertTerminal first (tm "t3" "TERM3" 2)
    let (t, t4) ← push t "t4" "TERM4"
    let (t, _) ← t.insertUnaryAbove t4 (s "SECOND")
    let (t, _) ← push t "t5" "TERM5"
    return (← t.projectNtIndices (labelled "FIRST")) == [first, root, first, root, root]) := by
  decide +kernel
-- tree.rs:1010-1026 `project_node_indices`
example : ok (do
    let t := Tree.new (s "t1") (s "TERM1")
    let (t, root) ← t.insertUnaryAbove t.root (s "ROOT")
    let (t, _) ← push t "t2" "TERM2"
    let (t, first) ← unwrapMut (t.insertUnaryBelow t.root (s "FIRST"))
    let (t, _) ← push t "t3" "TERM3"
    let (t, t4) ← push t "t4" "TERM4"
    let (t, _) ← t.insertUnaryAbove t4 (s "SECOND")
    let (t, _) ← push t "t5" "TERM5"
    return (← t.projectNtIndices (labelled "FIRST")) == [first, first, root, root, root]) := by
  decide +kernel
-- tree.rs:1028-1050 `project_node_ids`
example : ok (do
    let t := Tree.new (s "t1") (s "TERM1")
    let t1 := t.root
    let (t, _) ← t.insertUnaryAbove t1 (s "ROOT")
    let (t, first) ← t.insertUnaryAbove t1 (s "L")
    let (t, _) ← push t "t2" "TERM2"
    let (t, _) ← t.insertTerminal first (tm "t3" "TERM" 2)
    let (t, t4) ← push t "t4" "TERM4"
    let (t, _) ← t.insertUnaryAbove t4 (s "L")
    let (t, _) ← push t "t5" "TERM5"
    let t ← t.projectIds (s "id") fun t n => labelled "L" t n || n == t.root
    return (← terminalFeatures t) == [s "id:0", s "id:1", s "id:0", s "id:2", s "id:1"]) := by
  decide +kernel
-- tree.rs:1052-1069 `terminals`
example : ok (do
    let t ← someTree
    return (t.terminals.filterMap fun n => (t.graph.node? n).bind (·.terminal)).map (·.form) ==
      [s "t1", s "t2", s "t3", s "t4", s "t5"]) := by decide +kernel
-- tree.rs:1071-1084 `insert_unary_above`
example : ok (do
    let t ← simple tree0
    let (t, newRoot) ← t.insertUnaryAbove t.root (s "NewRoot")
    return t.root == newRoot &&
      (← isNode (t.node t.root) (.nt (.new (s "NewRoot") (← Span.new 0 5)))) &&
      (← shows t "(NewRoot (ROOT (FIRST (TERM1 t1) (TERM2 t2)) (TERM3 t3) (SECOND (TERM4 t4)) (TERM5 t5)))")) := by
  decide +kernel
-- tree.rs:1086-1096 `insert_terminal`
example : ok (do
    let t ← simple tree0
    let (t, _) ← t.insertTerminal 1 (tm "t13" "TERM13" 2)
    let a ← shows t "(ROOT (FIRST (TERM1 t1) (TERM2 t2) (TERM13 t13)) (TERM3 t3) (SECOND (TERM4 t4)) (TERM5 t5))"
    let b := t.isProjective
    let (t, _) ← t.insertTerminal 0 (tm "non_proj" "NONPROJ" 1)
    return a && b && !t.isProjective) := by decide +kernel
-- tree.rs:1098-1109 `push_terminal`
example : ok (do
    let t ← simple tree0
    let (t, n) ← push t "pushed" "PUSH"
    return (← isNode (t.node n) (.term (tm "pushed" "PUSH" 5))) &&
      (← shows t "(ROOT (FIRST (TERM1 t1) (TERM2 t2)) (TERM3 t3) (SECOND (TERM4 t4)) (TERM5 t5) (PUSH pushed))")) := by
  decide +kernel
-- tree.rs:1111-1135 `move_terminal`
example : ok (do
    let t ← simple tree0
    let t ← t.moveTerminal 6 4
    let a ← shows t "(ROOT (FIRST (TERM1 t1) (TERM2 t2)) (TERM3 t3) (TERM5 t5) (SECOND (TERM4 t4)))"
    let t ← t.moveTerminal 6 3
    let b ← shows t tree0
    let t ← t.moveTerminal 6 0
    let c ← shows t "(ROOT (SECOND (TERM4 t4)) (FIRST (TERM1 t1) (TERM2 t2)) (TERM3 t3) (TERM5 t5))"
    let (_, edge) ← get (t.parent 2)
    let (t, _) ← unwrapMut (t.reattachNode t.root edge)
    let t ← t.moveTerminal 2 0
    let d ← shows t "(ROOT (TERM1 t1) (SECOND (TERM4 t4)) (FIRST (TERM2 t2)) (TERM3 t3) (TERM5 t5))"
    return a && b && c && d) := by decide +kernel
-- tree.rs:1137-1151 `insert_unary_below`
example : ok (do
    let t ← simple tree0
    let (t, below) ← unwrapMut (t.insertUnaryBelow t.root (s "BelowRoot"))
    let (child, _) ← get (t.children t.root).head?
    return child == below &&
      (← isNode (t.node child) (.nt (.new (s "BelowRoot") (← Span.new 0 5)))) &&
      (← shows t "(ROOT (BelowRoot (FIRST (TERM1 t1) (TERM2 t2)) (TERM3 t3) (SECOND (TERM4 t4)) (TERM5 t5)))")) := by
  decide +kernel
-- tree.rs:1153-1161 `rm_terminal`
example : ok (do
    let t ← someTree
    let terminals := t.terminals
    let (t, t3) ← unwrapMut (t.removeNode (← get terminals[2]?))
    return t3.eq (.term (tm "t3" "TERM3" 2)) && (← isErr (t.removeNode (← get terminals[3]?)))) := by
  decide +kernel
-- tree.rs:1163-1179 `rm_nonterminal`
example : ok (do
    let t ← someTree
    let n ← get (t.nonterminals.find? (labelled "SECOND" t))
    let (t, nd) ← unwrapMut (t.removeNode n)
    return nd.eq (.nt (.new (s "SECOND") (.ofIdx 3))) &&
      (← shows t "(ROOT (FIRST (TERM1 t1) (TERM2 t2)) (TERM3 t3) (TERM4 t4) (TERM5 t5))")) := by
  decide +kernel
-- tree.rs:1181-1192 `rm_minimal_tree`
example : ok (do
    let t ← simple "(ROOT (T t))"
    let (t, nd) ← unwrapMut (t.removeNode t.root)
    return nd.eq (.nt (.new (s "ROOT") (.ofIdx 0))) &&
      (← isNode (t.node t.root) (.term (tm "t" "T" 0))) && (← shows t "(T t)")) := by decide +kernel
-- tree.rs:1194-1199 `rm_fail_last_node`
example : ok (do let t ← simple "(T t)"; isErr (t.removeNode t.root)) := by decide +kernel
-- tree.rs:1201-1208 `rm_root_multiple_attached`
example : ok (do let t ← simple "(ROOT (T t) (T2 t2))"; isErr (t.removeNode t.root)) := by decide +kernel
-- tree.rs:1210-1221 `reattach_terminal_to_same_parent`
example : ok (do
    let t ← someTree
    let (p, e) ← get (t.parent (← get t.terminals[0]?))
    let (t', r) ← unwrapMut (t.reattachNode p e)
    return r.2 == .primary none && (← t'.eq t)) := by decide +kernel
-- tree.rs:1223-1238 `reattach_terminal`
example : ok (do
    let t ← someTree
    let (_, e) ← get (t.parent (← get t.terminals[0]?))
    let (t, r) ← unwrapMut (t.reattachNode t.root e)
    return r.2 == .primary none &&
      (← shows t "(ROOT (TERM1 t1) (FIRST (TERM2 t2)) (TERM3 t3) (SECOND (TERM4 t4)) (TERM5 t5))")) := by
  decide +kernel
-- tree.rs:1240-1251 `reattach_terminal_to_terminal`
example : ok (do
    let t ← someTree
    let (_, e) ← get (t.parent (← get t.terminals[0]?))
    let r ← t.reattachNode (← get t.terminals[1]?) e
    return (← isErr (.ok r)) && (← shows r.1 tree0)) := by decide +kernel
-- tree.rs:1253-1264 `reattach_last_terminal`
example : ok (do
    let t ← someTree
    let (_, e) ← get (t.parent (← get t.terminals[3]?))
    let r ← t.reattachNode t.root e
    return (← isErr (.ok r)) && (← shows r.1 tree0)) := by decide +kernel
-- tree.rs:1266-1281 `reattach_nt_to_self`
example : ok (do
    let t ← someTree
    let n ← get (t.nonterminals.find? (labelled "FIRST" t))
    let (_, e) ← get (t.parent n)
    let r ← t.reattachNode n e
    return (← isErr (.ok r)) && (← shows r.1 tree0)) := by decide +kernel
-- tree.rs:1283-1305 `reattach_nt_projective`
example : ok (do
    let t ← simple "(ROOT (FIRST (TERM1 t1) (TERM2 t2)) (MOVE (TERM3 t3)) (SECOND (TERM4 t4)) (TERM5 t5))"
    let n ← get (t.nonterminals.find? (labelled "MOVE" t))
    let target ← get (t.nonterminals.find? (labelled "FIRST" t))
    let (_, e) ← get (t.parent n)
    let (t, r) ← unwrapMut (t.reattachNode target e)
    return r.2 == .primary none &&
      (← shows t "(ROOT (FIRST (TERM1 t1) (TERM2 t2) (MOVE (TERM3 t3))) (SECOND (TERM4 t4)) (TERM5 t5))")) := by
  decide +kernel

/-- tree.rs:1309-1319: the tree of `reattach_nonprojective` with the nodes and edges it names. -/
def nonProj : Res (Tree × Nat × Nat × Nat × Nat × Nat × Nat) := do
  let (g, root) := Graph.empty.addNode (.nt (.new (s "ROOT") (← Span.new 0 3)))
  let (g, a) := g.addNode (.nt (.new (s "A") (← unwrap (Span.fromVec [0, 2]))))
  let (g, aT) := g.addNode (.term (tm "a" "a_term" 0))
  let (g, bT) := g.addNode (.term (tm "b" "b_term" 2))
  let (g, cT) := g.addNode (.term (tm "c" "c_term" 1))
  let (g, aE) ← g.addEdge root a (.primary none)
  let (g, cE) ← g.addEdge root cT (.primary none)
  let (g, _) ← g.addEdge a aT (.primary none)
  let (g, bE) ← g.addEdge a bT (.primary none)
  return (⟨g, 3, root, 1⟩, root, a, cT, aE, cE, bE)

-- tree.rs:1307-1345 `reattach_nonprojective`
example : ok (do
    let (t0, root, a, c, aE, cE, bE) ← nonProj
    let (t, _) ← unwrapMut (t0.reattachNode a cE)
    let p ← shows t "(ROOT (A (a_term a) (c_term c) (b_term b)))"
    let (_, e) ← get (t.parent c)
    let (t, _) ← unwrapMut (t.reattachNode root e)
    let q ← t0.eq t
    let (t, _) ← unwrapMut (t0.reattachNode root bE)
    let r ← shows t "(ROOT (A (a_term a)) (c_term c) (b_term b))"
    let (t, _) ← unwrapMut (t0.reattachNode a cE)
    let (t, _) ← unwrapMut (t.reattachNode root aE)
    return p && q && r && (← shows t "(ROOT (A (a_term a) (c_term c) (b_term b)))")) := by decide +kernel
-- tree.rs:1347-1362 `siblings`
example : ok (do
    let t ← someTree
    let names ← (t.siblings 3).mapM fun (n, _) => do
      match ← t.node n with
      | .nt nt => return nt.label
      | .term tm => return tm.form
    return (t.siblings t.root).isEmpty && names == [s "t5", s "SECOND", s "t3"]) := by decide +kernel
-- tree.rs:1364-1406 `equality`
example : ok (do
    let t2 := tm "t2" "TERM2" 1
    let (g, i1) := Graph.empty.addNode (.term (tm "t1" "TERM1" 0))
    let (g, i3) := g.addNode (.term (tm "t3" "TERM3" 2))
    let (g, i2) := g.addNode (.term t2)
    let (g, first) := g.addNode (.nt (.new (s "FIRST") (← Span.new 0 2)))
    let (g, i4) := g.addNode (.term (tm "t4" "TERM4" 3))
    let (g, root) := g.addNode (.nt (.new (s "ROOT") (← Span.new 0 5)))
    let (g, second) := g.addNode (.nt (.new (s "SECOND") (← Span.new 3 4)))
    let (g, i5) := g.addNode (.term (tm "t5" "TERM5" 4))
    let (g, _) ← g.addEdge root second (.primary none)
    let (g, _) ← g.addEdge first i2 (.primary none)
    let (g, _) ← g.addEdge root i3 (.primary none)
    let (g, _) ← g.addEdge first i1 (.primary none)
    let (g, _) ← g.addEdge root i5 (.primary none)
    let (g, _) ← g.addEdge second i4 (.primary none)
    let (g, _) ← g.addEdge root first (.primary none)
    let t ← someTree
    let other : Tree := ⟨g, 5, root, 0⟩
    let a ← t.eq other
    let (nd, _) ← get ((← other.node i2).onTerminal (·.setLemma (some (s "some_lemma"))))
    let b ← t.eq (other.setNode i2 nd)
    let (g, _) ← get (g.removeNode i2)
    let c ← t.eq ⟨g, 4, root, 0⟩
    let (g, i2) := g.addNode (.term t2)
    let (g, _) ← g.addEdge first i2 (.primary none)
    let d ← t.eq ⟨g, 5, root, 0⟩
    return a && !b && !c && d) := by decide +kernel

-- tree.rs:28-34, doc of `Tree::new`
example : ok (shows (Tree.new (s "a") (s "A")) "(A a)") := by decide +kernel
-- tree.rs:215-224, doc of `push_terminal`
example : ok (do
    let t := Tree.new (s "a") (s "A")
    let (t, _) ← t.insertUnaryAbove t.root (s "ROOT")
    let (t, _) ← push t "b" "B"
    shows t "(ROOT (A a) (B b))") := by decide +kernel

end Lumberjack.Validation
