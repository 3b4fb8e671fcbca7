import Verif.Spec.Projectivize

/-!
# Taking projectivization back
-/

namespace Lumberjack
namespace Tree

/-- Code of a caller, written with the calls of the library: take back one entry `(parent, edge, node)` of the list
returned by `projectivize`, i.e. `let (_, e) = tree.parent(node).unwrap();`
`let (new, _) = tree.reattach_node(parent, e).unwrap(); tree[new] = edge;`. -/
def undoMove (t : Tree) (m : Move) : Res Tree := do
  let (_, e) ← Res.ofOption (t.parent m.2.2)
  let (t', r) ← t.reattachNode m.1 e
  let (new, _) ← Res.unwrap r
  return { t' with graph := t'.graph.setEdge new m.2.1 }

/-- Take back all entries of the list, the last one first. -/
def undo (t : Tree) (log : List Move) : Res Tree := forM' undoMove log.reverse t

/-- The same nodes with the same indices, contents and spans, and as many edges as before between any two nodes with
any content: the trees differ at most in the indices and the order of their edges. -/
structure Regained (t u : Tree) : Prop where
  node : ∀ n, u.graph.node? n = t.graph.node? n
  edges : (u.graph.edges.map fun r => (r.src, r.tgt, r.w)).Perm (t.graph.edges.map fun r => (r.src, r.tgt, r.w))
  root : u.root = t.root
  nTerminals : u.nTerminals = t.nTerminals
  numDisc : u.numDisc = t.numDisc

end Tree
end Lumberjack
