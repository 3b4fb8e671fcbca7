import Verif.Validation.UnitTests
import Verif.Model.Convert

/-!
# The repository's own unit tests, run on the model: tree operations and formats

See `Validation/UnitTests.lean`.
-/

namespace Lumberjack.Validation

/-! ## util.rs -/

-- util.rs:87-104 `label_set_test`
example :
    let set := [s "a", s "b", s "c"]
    let pos := LabelSet.positive set
    let neg := LabelSet.negative set
    pos.matches (s "a") ∧ pos.matches (s "b") ∧ pos.matches (s "c") ∧ ¬pos.matches (s "d") ∧
    ¬pos.matches (s "e") ∧ ¬neg.matches (s "a") ∧ ¬neg.matches (s "b") ∧ ¬neg.matches (s "c") ∧
    neg.matches (s "d") ∧ neg.matches (s "e") := by decide +kernel

/-! ## tree_modification.rs -/

def collapse (t : Tree) : Res Tree := t.collapseUnaryChains (s "_")
def restore (t : Tree) : Res Tree := do return (← unwrapMut (t.restoreUnaryChains (s "_"))).1

/-- Reads `input`, collapses and expects `collapsed`, restores and expects `input`. -/
def unCollapse (input collapsed : String) : Res Bool := do
  let t ← simple input
  let t ← collapse t
  let a ← shows t collapsed
  let t ← restore t
  return a && (← shows t input)

-- tree_modification.rs:365-404 `un_collapse_unary`
example : ok (do
    let t ← collapse (← simple "(ROOT (UNARY (T t)))")
    return (← get (← t.node t.root).features).toStr == s "unary_chain:UNARY_ROOT") := by decide +kernel
example : ok (unCollapse "(ROOT (UNARY (T t)))" "(T t)") := by decide +kernel
example : ok (unCollapse "(ROOT (UNARY (T t)) (ANOTHER (T2 t2)))" "(ROOT (T t) (T2 t2))") := by
  decide +kernel
example : ok (unCollapse "(ROOT (UNARY (INTERMEDIATE (T t) (T2 t2))) (ANOTHER (T3 t3)))"
    "(ROOT (INTERMEDIATE (T t) (T2 t2)) (T3 t3))") := by decide +kernel
example : ok (unCollapse "(ROOT (BRANCHING (T1 t1) (T2 t2)) (ANOTHER-BRANCH (T3 t3) (T4 t4)))"
    "(ROOT (BRANCHING (T1 t1) (T2 t2)) (ANOTHER-BRANCH (T3 t3) (T4 t4)))") := by decide +kernel

-- tree_modification.rs:406-419 `annotate_pos`
example : ok (do
    let t ← tueba "(NX (NN Nounphrase) (PX (PP on) (NX (DET a) (ADJ single) (NX line))))"
    let (t, _) ← unwrapMut (t.annotatePos [s "A", s "B", s "C", s "D", s "E"])
    return (← shows t "(NX (A Nounphrase) (PX (B on) (NX (C a) (D single) (E line))))") &&
      (← isErr (t.annotatePos [s "A"])) &&
      (← isErr (t.annotatePos [s "A", s "B", s "C", s "D", s "E", s "F"]))) := by decide +kernel

-- tree_modification.rs:421-451 `filter_nonproj`
example : ok (do
    let t := Tree.new (s "t1") (s "TERM1")
    let t1 := t.root
    let (t, _) ← t.insertUnaryAbove t1 (s "ROOT")
    let (t, l) ← t.insertUnaryAbove t1 (s "L")
    let (t, t2) ← push t "t2" "TERM2"
    let (t, l1) ← t.insertUnaryAbove t2 (s "L1")
    let (t, _) ← t.insertTerminal l (tm "t3" "TERM3" 2)
    let (t, t4) ← push t "t4" "TERM4"
    let (t, ll) ← t.insertUnaryAbove t4 (s "L")
    let (t, _) ← t.insertTerminal ll (tm "t5" "TERM5" 4)
    let (filtered, _) ← unwrapMut (t.filterNonterminals (labelled "L"))
    let (t, _) ← unwrapMut (t.removeNode l1)
    let a ← t.eq filtered
    let (t, _) ← t.insertUnaryAbove t2 (s "L1")
    let (filtered, _) ← unwrapMut (t.filterNonterminals (labelled "L1"))
    let (t, _) ← unwrapMut (t.removeNode l)
    let (t, _) ← unwrapMut (t.removeNode ll)
    return a && (← t.eq filtered)) := by decide +kernel

-- tree_modification.rs:453-481 `insert_unks_nonproj`
example : ok (do
    let t := Tree.new (s "t1") (s "TERM1")
    let t1 := t.root
    let (t, _) ← t.insertUnaryAbove t1 (s "ROOT")
    let (t, l) ← t.insertUnaryAbove t1 (s "L")
    let (t, t2) ← push t "t2" "TERM2"
    let (t, _) ← t.insertTerminal l (tm "t3" "TERM3" 2)
    let (t, t4) ← push t "t4" "TERM4"
    let (t, t5) ← push t "t5" "TERM5"
    let (inserted, _) ← unwrapMut (t.insertIntermediate fun t n =>
      if labelled "L" t n then none else some (s "UNK"))
    let (t, _) ← t.insertUnaryAbove t2 (s "UNK")
    let (t, unk) ← t.insertUnaryAbove t4 (s "UNK")
    let (_, e) ← get (t.parent t5)
    let (t, _) ← unwrapMut (t.reattachNode unk e)
    t.eq inserted) := by decide +kernel

/-- `t[node].label().starts_with(p)` -/
def startsWith (p : String) (t : Tree) (n : Nat) : Bool :=
  ((t.graph.node? n).map fun nd => (s p).isPrefixOf nd.label) == some true

-- tree_modification.rs:483-497 `reattach`
example : ok (do
    let t ← simple "(ROOT (BRANCHING (T1 t1) (T2 t2)) (ANOTHER-BRANCH (T3 t3) (T4 t4)))"
    let t ← t.reattachTerminals t.root (startsWith "T")
    let u := Tree.new (s "t1") (s "T1")
    let (u, _) ← u.insertUnaryAbove u.root (s "ROOT")
    let (u, _) ← push u "t2" "T2"
    let (u, _) ← push u "t3" "T3"
    let (u, _) ← push u "t4" "T4"
    u.eq t) := by decide +kernel

-- tree_modification.rs:499-519 `reattach_punct`
example : ok (do
    let t ← simple "(ROOT (BRANCHING (T1 t1) ($, ,) (T2 t2)) (ANOTHER-BRANCH (T3 t3) ($, ($. .)) (T4 t4)) ($. .))"
    let t ← t.reattachTerminals t.root (startsWith "$")
    let u := Tree.new (s "t1") (s "T1")
    let t1 := u.root
    let (u, _) ← u.insertUnaryAbove t1 (s "ROOT")
    let (u, branching) ← u.insertUnaryAbove t1 (s "BRANCHING")
    let (u, _) ← push u "," "$,"
    let (u, _) ← u.insertTerminal branching (tm "t2" "T2" 2)
    let (u, t3) ← push u "t3" "T3"
    let (u, another) ← u.insertUnaryAbove t3 (s "ANOTHER-BRANCH")
    let (u, _) ← push u "." "$."
    let (u, _) ← u.insertTerminal another (tm "t4" "T4" 5)
    let (u, _) ← push u "." "$."
    u.eq t) := by decide +kernel

/-! ## io/encode.rs -/

def relIs (x : String) (a : RelAncestor) : Bool :=
  match RelAncestor.parse (s x) with
  | .ok b => b == a && b.toStr == s x
  | .error _ => false

def relErr (x : String) : Bool := match RelAncestor.parse (s x) with | .ok _ => false | .error _ => true
def absErr (x : String) : Bool := match AbsAncestor.parse (s x) with | .ok _ => false | .error _ => true

def absIs (x : String) (a : AbsAncestor) : Bool :=
  match AbsAncestor.parse (s x) with
  | .ok b => b == a && b.toStr == s x
  | .error _ => false

-- encode.rs:651-678 `test_try_from_str`
example : relIs "Label+-1" (.regular (-1) (s "Label")) && relIs "Label+1" (.regular 1 (s "Label")) &&
    relErr "" && relErr "Label+no_number" && relIs "Root" (.root (s "Root")) &&
    absErr "Label+-1" && absIs "Label+1" ⟨1, s "Label"⟩ && absErr "" && absErr "Label+no_number" &&
    absErr "Root" := by decide +kernel

def terminalsIn (t : Tree) : List Terminal :=
  t.terminals.filterMap fun n => (t.graph.node? n).bind (·.terminal)

def absStep (n : Nat) (l : String) : Option AbsAncestor := some ⟨n, s l⟩

/-- Reads `ptb`, collapses, encodes, compares with `target`, decodes, restores and compares with
the tree first read. -/
def encodes (ptb : String) (target : AbsEncoding) : Res Bool := do
  let t0 ← simple ptb
  let t ← collapse t0
  let e ← unwrap t.encodeAbsolute
  let back ← restore (← Tree.decode e (terminalsIn t0))
  return e == target && (← t0.eq back)

-- encode.rs:680-762 `encode_absolute`
example : ok (encodes "(S (U1 (U2 (T1 t1) (T2 t2))))" [(absStep 1 "U1_S_U2", none), (none, none)]) := by
  decide +kernel
example : ok (encodes "(R (NT1 (U1 (U2 (T t))) (NT2 (NT3 (T t) (T t)) (U3 (T t)))) (T t))"
    [(absStep 2 "NT1", some (s "U2_U1")), (absStep 4 "NT3", none), (absStep 3 "NT2", none),
      (absStep 1 "R", some (s "U3")), (none, none)]) := by decide +kernel
example : ok (encodes "(S (U (T t)))" [(none, some (s "U_S"))]) := by decide +kernel
example : ok (do
    let t ← simple "(S (T t) (NT (T2 t) (T3 t)))"
    let e ← unwrap t.encodeAbsolute
    return e == [(absStep 1 "S", none), (absStep 2 "NT", none), (none, none)] &&
      (← (← Tree.decode e (terminalsIn t)).eq t)) := by decide +kernel

def toy : String :=
  "(S (NP (PRP My) (NN daughter)) (VP (VBD broke) (NP (NP (DET the) (JJ red) (NN toy)) (PP (IN with) (NP (DET a) (NN hammer))))) (. .))"

-- encode.rs:764-785 `encode`
example : ok (do
    let t ← simple toy
    let e ← unwrap t.encodeRelative
    let e := e.set 2 (some (.regular (-5) (s "VP")), none)
    shows (← Tree.decode (tryFromRelative e).unwrapOrFix (terminalsIn t)) toy) := by decide +kernel

-- encode.rs:787-815 `rel_encode`
example : ok (do
    let t ← simple toy
    let e ← unwrap t.encodeRelative
    let r (n : Int) (l : String) : Option RelAncestor := some (.regular n (s l))
    let a := e == [(r 2 "NP", none), (some (.root (s "S")), none), (r 1 "VP", none), (r 2 "NP", none),
      (r 0 "NP", none), (r (-1) "NP", none), (r 1 "PP", none), (r 1 "NP", none),
      (some (.root (s "S")), none), (none, none)]
    match tryFromRelative e with
    | .success e => return a && (← t.eq (← Tree.decode e (terminalsIn t)))
    | .error _ => .panic) := by decide +kernel

-- encode.rs:817-840 `conversion`
example : ok (do
    let t ← simple toy
    let abs ← unwrap t.encodeAbsolute
    let rel ← unwrap t.encodeRelative
    match tryFromRelative rel with
    | .success conv =>
      return rel == relFromAbs abs && abs == conv && (← t.eq (← Tree.decode abs (terminalsIn t))) &&
        (← t.eq (← Tree.decode conv (terminalsIn t)))
    | .error _ => .panic) := by decide +kernel

-- encode.rs:210-219, doc of `Decode::decode`
example : ok (do
    let t ← simple "(Some (Test tree))"
    let e ← unwrap t.encodeRelative
    let _ ← Tree.decode (tryFromRelative e).unwrapOrFix (terminalsIn t)
    return true) := by decide +kernel

/-! ## io/ptb.rs -/

def fails (x : String) : Bool := panics (tueba x)

/-- testdata/single_multiline.ptb -/
def singleMultiline : List Str :=
  [s "(S", s "    (NT1", s "        (T1 This) )", s "    (NT2", s "        (T2 is)", s "        )",
    s "    (T3:edge a)", s "    (T=4 test)", s ")"]

-- ptb.rs:365-375 `test_multiline`
example : ok (do
    let (r, _) ← Ptb.readerNext .tueba .multi singleMultiline
    return (← unwrap (.ok (← get r))).nTerminals == 4) := by decide +kernel
-- ptb.rs:377-382 `test_with_edge_labels`
example : ok (do
    let _ ← tueba "(NX:edge (NN Nounphrase) (PX:edge (PP on) (NX:another (DET a ) (ADJ single) (NX line))))"
    return true) := by decide +kernel
-- ptb.rs:384-389 `test_single_terminal`
example : ok (do shows (← simple "(T t)") "(T t)") := by decide +kernel
-- ptb.rs:391-395 `test_without_edge_labels`
example : ok (do
    let _ ← tueba "(NX (NN Nounphrase) (PX (PP on) (NX (DET a ) (ADJ single) (NX line))))"
    return true) := by decide +kernel
-- ptb.rs:397-434 `readable_test`
example : ok (do
    let (g, t1) := Graph.empty.addNode (.term (tm "t1" "TERM1" 0))
    let (g, t2) := g.addNode (.term (tm "t2" "TERM2" 1))
    let (g, first) := g.addNode (.nt (.new (s "FIRST") (← Span.new 0 2)))
    let (g, _) ← g.addEdge first t1 (.primary none)
    let (g, _) ← g.addEdge first t2 (.primary none)
    let (g, t3) := g.addNode (.term (tm "t1" "TERM1" 2))
    let (g, sec) := g.addNode (.nt (.new (s "SEC") (← Span.new 2 3)))
    let (g, _) ← g.addEdge sec t3 (.primary none)
    let (g, t4) := g.addNode (.term (tm "t" "TERM" 3))
    let (g, root) := g.addNode (.nt (.new (s "ROOT") (← Span.new 0 4)))
    let (g, _) ← g.addEdge root first (.primary none)
    let (g, _) ← g.addEdge root sec (.primary (some (s "label")))
    let (g, _) ← g.addEdge root t4 (.primary none)
    let tree ← tueba "(ROOT (FIRST (TERM1 t1) (TERM2 t2)) (SEC:label (TERM1 t1)) (TERM t))"
    return (← tree.eq ⟨g, 4, 6, 0⟩) && tree.nTerminals == 4 && root == 6) := by decide +kernel
-- ptb.rs:436-473 `empty_line`, `closed_to_early`, `missing_par`, `second_tree`, `illegal_char`
example : fails "" := by decide +kernel
example : fails "(ROOT (FIRST (TERM1 t1) (TERM2 t2)) (SEC:label (TERM1 t1)))) (TERM t))" := by decide +kernel
example : fails "(ROOT (FIRST (TERM1 t1) (TERM2 t2)) (SEC:label (TERM1 t1)) (TERM t)" := by decide +kernel
example : fails "(ROOT (FIRST (TERM1 t1) (TERM2 t2)) (SEC:label (TERM1 t1)) (TERM t)) (ROOT (Second tree))" := by
  decide +kernel
example : fails "(ROOT (FIRST (TERM1 () (TERM2 t2)) (SEC:label (TERM1 t1)) (TERM t))" := by decide +kernel
-- ptb.rs:475-495 `write_test`
example : ok (do
    let t ← tueba "(VROOT:- (NP=NE:- (N:- n)) (VP:HD (V:HD v)))"
    return (← unwrap (Ptb.treeToString .tueba t)) == s "(VROOT:--(NP=NE:-(N:- n))(VP:HD(V:HD v)))" &&
      (← unwrap (Ptb.treeToString .ptb t)) == s "(VROOT (NP-NE (N n)) (VP (V v)))" &&
      (← unwrap (Ptb.treeToString .simple t)) == s "(VROOT (NP (N n)) (VP (V v)))") := by decide +kernel

/-! ## io/conllx.rs -/

/-- The sentence of `to_conllx` and `into_conllx`, with the two features on its first word. -/
def nounphrase : Res Tree := do
  let t ← tueba "(NX (NN Nounphrase) (PX (PP on) (NX (DET a) (ADJ single) (NX line))))"
  let n ← get t.terminals.head?
  let (nd, f) := (← t.node n).openFeatures
  let f := (f.insert (s "feature") none).1
  let f := (f.insert (s "key") (some (s "val"))).1
  return t.setNode n (nd.replaceFeatures (some f)).1

def nounphraseTokens : List Conllx.Token :=
  [⟨s "Nounphrase", none, some (s "NN"), some (s "feature|key:val")⟩, ⟨s "on", none, some (s "PP"), none⟩,
    ⟨s "a", none, some (s "DET"), none⟩, ⟨s "single", none, some (s "ADJ"), none⟩,
    ⟨s "line", none, some (s "NX"), none⟩]

-- conllx.rs:193-255 `to_conllx` (first part), conllx.rs:257-279 `into_conllx`
example : ok (do return (← Conllx.toConllx (← nounphrase)) == nounphraseTokens) := by decide +kernel
example : ok (do return (← Conllx.intoConllx (← nounphrase)) == nounphraseTokens) := by decide +kernel

/-! ## io/negra.rs -/

def export1 (x : String) : Res (Option Tree) := do
  match ← Negra.readerNext (Negra.lines (s x)) with
  | (some (.ok t), _) => return some t
  | _ => return none

def reads (x : String) : Bool := ok (do return (← export1 x).isSome)
def rejects (x : String) : Bool := ok (do return (← export1 x).isNone)

/-- testdata/single.negra -/
def single : String := "#BOS 1  2 1202391857 0 %% HEADLINE
V\t\tv\t\tVVFIN\t3sit\t\tHD\t500
d\t\t\td\t\t\tART\tnsf\t\t-NE\t502
A\t\t\ta\t\t\tNN\tnsf\t\tHD\t502
S\t\ts\t\tNN\tasn\t\tHD\t503
?\t\t\t?\t\t\t$.\t--\t\t--\t0
#500\t\t\t--\t\t\tVXFIN\t--\t\tHD\t501
#501\t\t\t--\t\t\tLK\t--\t\t-\t505
#502\t\t\t--\t\t\tNX=ORG\t--\t\tON\t504
#503\t\t\t--\t\t\tNX\t--\t\tOA\t504
#504\t\t\t--\t\t\tMF\t--\t\t-\t505
#505\t\t\t--\t\t\tSIMPX\t--\t\t--\t0
#EOS 1"

def word (form lemma? pos : String) (i : Nat) (morph : Option String) : Node :=
  .term { tm form pos i with lem := some (s lemma?), features := morph.map fun m => Features.parse (s m) }

def phrase (label : String) (lo hi : Nat) : Res Node := do return .nt (.new (s label) (← Span.new lo hi))

def feat (nd : Node) (k v : String) : Node :=
  nd.setFeatures (some (nd.featuresMut.insert (s k) (some (s v))).1)

-- negra.rs:554-608 `test_first`
example : ok (do
    let root0 ← phrase "VROOT" 0 5
    let root0 := feat (feat root0 "metadata" "2 1202391857 0 %% HEADLINE") "sentence_id" "1"
    let (g, root) := Graph.empty.addNode root0
    let (g, v) := g.addNode (word "V" "v" "VVFIN" 0 (some "morph:3sit"))
    let (g, vxfin) := g.addNode (← phrase "VXFIN" 0 1)
    let (g, d) := g.addNode (word "d" "d" "ART" 1 (some "morph:nsf"))
    let (g, nxorg) := g.addNode (feat (← phrase "NX" 1 3) "node_annotation" "ORG")
    let (g, a) := g.addNode (word "A" "a" "NN" 2 (some "morph:nsf"))
    let (g, w) := g.addNode (word "S" "s" "NN" 3 (some "morph:asn"))
    let (g, nx) := g.addNode (← phrase "NX" 3 4)
    let (g, punct) := g.addNode (word "?" "?" "$." 4 none)
    let (g, lk) := g.addNode (← phrase "LK" 0 1)
    let (g, simpx) := g.addNode (← phrase "SIMPX" 0 4)
    let (g, mf) := g.addNode (← phrase "MF" 1 4)
    let l (x : String) : Edge := .primary (some (s x))
    let (g, _) ← g.addEdge vxfin v (l "HD")
    let (g, _) ← g.addEdge nxorg d (l "-NE")
    let (g, _) ← g.addEdge nxorg a (l "HD")
    let (g, _) ← g.addEdge nx w (l "HD")
    let (g, _) ← g.addEdge mf nx (l "OA")
    let (g, _) ← g.addEdge root punct (.primary none)
    let (g, _) ← g.addEdge lk vxfin (l "HD")
    let (g, _) ← g.addEdge simpx lk (l "-")
    let (g, _) ← g.addEdge mf nxorg (l "ON")
    let (g, _) ← g.addEdge simpx mf (l "-")
    let (g, _) ← g.addEdge root simpx (.primary none)
    (← get (← export1 single)).eq ⟨g, 5, root, 0⟩) := by decide +kernel

def was : String := "was etwas   PIS *** HD  502 %some random comment that gets ignored\n"

-- negra.rs:629-643 `terminal`
example : ok (do
    let b ← unwrap (Negra.fromHeader (s "#BOS 0"))
    let b ← unwrap (Negra.processLine b (s was))
    let nd ← get (b.graph.node? 1)
    return b.graph.nodeCount == 3 && nd.eq (word "was" "etwas" "PIS" 0 (some "morph:***")) &&
      panics (unwrap (Negra.processLine b (s "#was etwas   PIS *** HD 502\n")))) := by decide +kernel

def nt502 : String := "#502\t\t\t--\t\t\tNX\t--\t\tON\t503\n"

-- negra.rs:645-657 `nonterminal`
example : ok (do
    let b ← unwrap (Negra.fromHeader (s "#BOS 0"))
    let bad := panics (unwrap (Negra.processLine b (s nt502)))
    let one := b.graph.nodeCount == 1
    let b ← unwrap (Negra.processLine b (s was))
    let b ← unwrap (Negra.processLine b (s nt502))
    let nd ← get (b.graph.node? 2)
    return bad && one && b.graph.nodeCount == 4 && nd.eq (.nt (.new (s "NX") (.ofIdx 0)))) := by decide +kernel

-- negra.rs:659-673 `terminal_without_parent`, `terminal_missing_field`
example : panics (do
    let b ← unwrap (Negra.fromHeader (s "#BOS 0"))
    unwrap (Negra.processLine b (s "was etwas   PIS *** HD\n"))) := by decide +kernel
example : panics (do
    let b ← unwrap (Negra.fromHeader (s "#BOS 0"))
    unwrap (Negra.processLine b (s "was    PIS *** HD 502\n"))) := by decide +kernel

/-- The body lines shared by the `wellformed` and `malformed_*` tests, indented as there. -/
def body : String := "
        V\t\tv\t\tVVFIN\t3sit\t\tHD\t500
        d\t\t\td\t\t\tART\tnsf\t\t-NE\t502
        A\t\t\ta\t\t\tNN\tnsf\t\tHD\t502
        S\t\ts\t\tNN\tasn\t\tHD\t503
        ?\t\t\t?\t\t\t$.\t--\t\t--\t0
        #500\t\t\t--\t\t\tVXFIN\t--\t\tHD\t501
        #501\t\t\t--\t\t\tLK\t--\t\t-\t505
        #502\t\t\t--\t\t\tNX=ORG\t--\t\tON\t504
        #503\t\t\t--\t\t\tNX\t--\t\tOA\t504
        #504\t\t\t--\t\t\tMF\t--\t\t-\t505
        #505\t\t\t--\t\t\tSIMPX\t--\t\t--\t0"

-- negra.rs:675-693 `wellformed`
example : reads ("#BOS 1  2 1202391857 0 %% HEADLINE" ++ body ++ "\n        #EOS 1") := by decide +kernel
-- negra.rs:695-775 `malformed_missing_bos`, `malformed_invalid_start`, `malformed_matching_ids`,
-- `malformed_missing_eos`
example : rejects ("V\t\tv\t\tVVFIN\t3sit\t\tHD\t500" ++ String.ofList ((s body).drop 27) ++ "\n        #EOS 1") := by
  decide +kernel
example : rejects ("#BOS" ++ body ++ "\n        #EOS 1") := by decide +kernel
example : rejects ("#BOS 0" ++ body ++ "\n        #EOS 1") := by decide +kernel
example : rejects ("#BOS 1  2 1202391857 0 %% HEADLINE" ++ body) := by decide +kernel
-- negra.rs:777-789 `wellformed_no_nts`
example : reads "#BOS 1  2 1202391857 0 %% HEADLINE
        V\t\tv\t\tVVFIN\t3sit\t\tHD\t0
        d\t\t\td\t\t\tART\tnsf\t\t-NE\t0
        A\t\t\ta\t\t\tNN\tnsf\t\tHD\t0
        S\t\ts\t\tNN\tasn\t\tHD\t0
        ?\t\t\t?\t\t\t$.\t--\t\t--\t0
        #EOS 1" := by decide +kernel

end Lumberjack.Validation
