import Verif.Spec.Rewrite

/-!
# Moving words to the root as rewriting of an ordered tree
-/

namespace Lumberjack
namespace Forest

/-- The span of the words in a list from left to right: from the first to the last, without the positions of others in
between. -/
def wordSpan (l : List Terminal) : Span :=
  let ps := l.map (·.span.start)
  let lo := ps.head?.getD 0
  let hi := ps.getLast?.getD 0
  let others := (Finset.range hi).filter fun i => lo < i ∧ i ∉ ps
  ⟨lo, hi + 1, if others = ∅ then none else some others⟩

/-- All leaves with `P` are taken out, and all nodes with nothing left below them. -/
def pruned (P : Terminal → Bool) : Forest → Forest
  | nil => nil
  | leaf e x r => if P x then r.pruned P else leaf e x (r.pruned P)
  | node e x k r =>
    if k.pruned P = nil then r.pruned P
    else node e { x with span := wordSpan (k.pruned P).leaves } (k.pruned P) (r.pruned P)

/-- The leaf `x`, attached without label, before the first tree that starts after it. -/
def insertLeaf (x : Terminal) : Forest → Forest
  | nil => leaf none x nil
  | leaf e y r => if x.span.start < y.span.start then leaf none x (leaf e y r) else leaf e y (r.insertLeaf x)
  | node e y k r => if x.span.start < y.span.start then leaf none x (node e y k r) else node e y k (r.insertLeaf x)

/-- All leaves with `P` are attached to the topmost node, without labels. -/
def gathered (P : Terminal → Bool) : Forest → Forest
  | node e x k r => node e x ((k.leaves.filter P).foldr insertLeaf (k.pruned P)) r
  | f => f

/-- No node has a gap. -/
def Solid : Forest → Prop
  | nil => True
  | leaf _ _ r => r.Solid
  | node _ x k r => x.span.skips = none ∧ k.Solid ∧ r.Solid

/-- The steps of the conversion tool up to `--reattach`, for trees without gaps. -/
def moved (o : Convert.Options) (tags : Option (List Str)) (F : Forest) : Forest :=
  given o.reattachLabel (fun p => gathered fun x => decide (p <+: x.pos))
    (given tags retagged (if o.removeDummies then F.undummied else F))

end Forest

/-- The options for the steps after `--reattach`. -/
def Convert.afterReattach (o : Convert.Options) : Convert.Options :=
  { o with removeDummies := false, projectivize := false, reattachLabel := none }

end Lumberjack
