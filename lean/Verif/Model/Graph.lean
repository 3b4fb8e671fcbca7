import Verif.Model.Node

/-!
# Model of `petgraph::stable_graph::StableGraph<Node, Edge>`

lumberjack stores a tree in a `StableGraph` (tree.rs:19).  petgraph itself is not part of /repo;
this file is the assumed behaviour of petgraph 0.4.13 (the version in /repo/Cargo.lock):

* node and edge slots are reused last-freed-first;
* the adjacency lists of a node are walked newest edge first, in both directions, and removing an
  edge keeps the order of the others — so one global newest-first list of edges, filtered by
  endpoint, reproduces both adjacency lists;
* `node_indices` runs in increasing index order;
* `Index` panics on absent nodes and edges, `edges_directed` is empty for absent nodes.
-/

namespace Lumberjack

/-- A live edge: index, endpoints, weight. -/
structure EdgeRec where
  id : Nat
  src : Nat
  tgt : Nat
  w : Edge
deriving DecidableEq

/-- tree.rs:19 `StableGraph<Node, Edge>`. -/
structure Graph where
  /-- node slots -/
  nodes : List (Option Node)
  /-- freed node slots, most recently freed first -/
  freeNodes : List Nat
  /-- live edges, most recently added first -/
  edges : List EdgeRec
  /-- number of edge slots ever allocated -/
  edgeSlots : Nat
  /-- freed edge slots, most recently freed first -/
  freeEdges : List Nat
deriving DecidableEq

namespace Graph

/-- `StableGraph::new`. -/
def empty : Graph := ⟨[], [], [], 0, []⟩

/-- `StableGraph::node_weight`. -/
def node? (g : Graph) (n : Nat) : Option Node := (g.nodes[n]?).join

/-- `StableGraph::contains_node`. -/
def contains (g : Graph) (n : Nat) : Bool := (g.node? n).isSome

/-- `StableGraph::node_indices`. -/
def nodeIndices (g : Graph) : List Nat := (List.range g.nodes.length).filter g.contains

/-- `StableGraph::node_count`. -/
def nodeCount (g : Graph) : Nat := g.nodeIndices.length

/-- `StableGraph::add_node`. -/
def addNode (g : Graph) (nd : Node) : Graph × Nat :=
  match g.freeNodes with
  | i :: rest => ({ g with nodes := g.nodes.set i (some nd), freeNodes := rest }, i)
  | [] => ({ g with nodes := g.nodes ++ [some nd] }, g.nodes.length)

/-- Overwriting the weight of a live node through `IndexMut`. -/
def setNode (g : Graph) (n : Nat) (nd : Node) : Graph :=
  { g with nodes := g.nodes.set n (some nd) }

/-- `StableGraph::add_edge`; panics if an endpoint is missing. -/
def addEdge (g : Graph) (a b : Nat) (w : Edge) : Res (Graph × Nat) := do
  Res.assert (g.contains a && g.contains b)
  match g.freeEdges with
  | i :: rest => return ({ g with edges := ⟨i, a, b, w⟩ :: g.edges, freeEdges := rest }, i)
  | [] => return ({ g with edges := ⟨g.edgeSlots, a, b, w⟩ :: g.edges,
                           edgeSlots := g.edgeSlots + 1 }, g.edgeSlots)

/-- Lookup of a live edge by index (`edge_weight`, `edge_endpoints`). -/
def edge? (g : Graph) (e : Nat) : Option EdgeRec := g.edges.find? (fun r => r.id = e)

/-- `StableGraph::remove_edge`. -/
def removeEdge (g : Graph) (e : Nat) : Option (Graph × Edge) :=
  match g.edge? e with
  | some r => some ({ g with edges := g.edges.filter (fun r => r.id ≠ e),
                             freeEdges := e :: g.freeEdges }, r.w)
  | none => none

/-- Overwriting the weight of an edge through `IndexMut`. -/
def setEdge (g : Graph) (e : Nat) (w : Edge) : Graph :=
  { g with edges := g.edges.map (fun r => if r.id = e then { r with w := w } else r) }

/-- `edges_directed(n, Outgoing)`. -/
def outEdges (g : Graph) (n : Nat) : List EdgeRec := g.edges.filter (fun r => r.src = n)

/-- `edges_directed(n, Incoming)`. -/
def inEdges (g : Graph) (n : Nat) : List EdgeRec := g.edges.filter (fun r => r.tgt = n)

/-- `StableGraph::remove_node`: first all outgoing, then all incoming edges are removed. -/
def removeNode (g : Graph) (n : Nat) : Option (Graph × Node) :=
  match g.node? n with
  | some nd =>
    let outs := (g.outEdges n).map (·.id)
    let ins := ((g.inEdges n).filter (fun r => r.src ≠ n)).map (·.id)
    some ({ nodes := g.nodes.set n none
            freeNodes := n :: g.freeNodes
            edges := g.edges.filter (fun r => r.src ≠ n ∧ r.tgt ≠ n)
            edgeSlots := g.edgeSlots
            freeEdges := ins.reverse ++ (outs.reverse ++ g.freeEdges) }, nd)
  | none => none

/-- tree.rs:895-905 `GraphWrap::neighbors`: targets of outgoing primary edges. -/
def primaryNeighbors (g : Graph) (n : Nat) : List Nat :=
  ((g.outEdges n).filter (fun r => r.w.isPrimary)).map (·.tgt)

end Graph

/-- State of `petgraph::visit::DfsPostOrder`; the top of the stack is the head of the list. -/
structure DfsPost where
  stack : List Nat
  discovered : Finset Nat
  finished : Finset Nat
deriving DecidableEq

namespace DfsPost

/-- `DfsPostOrder::new`. -/
def new (start : Nat) : DfsPost := ⟨[start], ∅, ∅⟩

/-- One iteration of the loop in `DfsPostOrder::next` over `GraphWrap`. -/
def step (g : Graph) (d : DfsPost) : Res (DfsPost ⊕ (Option Nat × DfsPost)) :=
  match d.stack with
  | [] => .ok (.inr (none, d))
  | nx :: rest =>
    if nx ∉ d.discovered then
      let disc := insert nx d.discovered
      .ok (.inl { d with
        stack := ((g.primaryNeighbors nx).filter (· ∉ disc)).reverse ++ d.stack
        discovered := disc })
    else if nx ∉ d.finished then
      .ok (.inr (some nx, { d with stack := rest, finished := insert nx d.finished }))
    else
      .ok (.inl { d with stack := rest })

/-- Iteration budget for one `next` call: every iteration either discovers a node (pushing at most
all edge targets) or pops the stack. -/
def fuel (g : Graph) (d : DfsPost) : Nat :=
  (g.nodes.length + 1) * (g.edges.length + 1) + d.stack.length + 1

/-- `DfsPostOrder::next`. -/
def next (g : Graph) (d : DfsPost) : Res (Option Nat × DfsPost) := loopM (step g) (fuel g d) d

end DfsPost

/-- State of `petgraph::visit::Dfs`. -/
structure Dfs where
  stack : List Nat
  discovered : Finset Nat
deriving DecidableEq

namespace Dfs

/-- `Dfs::new`. -/
def new (start : Nat) : Dfs := ⟨[start], {start}⟩

/-- The `for succ in graph.neighbors(node)` loop of `Dfs::next` (petgraph 0.4): newly visited
successors are pushed. -/
def push : List Nat → Dfs → Dfs
  | [], d => d
  | s :: ss, d =>
    if s ∉ d.discovered then push ss ⟨s :: d.stack, insert s d.discovered⟩ else push ss d

/-- `Dfs::next` over `GraphWrap`. -/
def next (g : Graph) (d : Dfs) : Option Nat × Dfs :=
  match d.stack with
  | [] => (none, d)
  | n :: rest => (some n, push (g.primaryNeighbors n) { d with stack := rest })

end Dfs
end Lumberjack
