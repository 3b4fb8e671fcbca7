import Verif.Spec.Stable

/-!
# Trees that differ in their inner representation only
-/

namespace Lumberjack
namespace Tree

/-- `u` is `t` with other node indices `φ` and possibly another order of nodes and edges, other edge indices and other
free slots. -/
structure Iso (t u : Tree) (φ : Nat → Nat) : Prop where
  root : u.root = φ t.root
  inj : ∀ n m, t.Live n → t.Live m → φ n = φ m → n = m
  onto : ∀ n', u.Live n' → ∃ n, t.Live n ∧ φ n = n'
  node : ∀ n, t.Live n → u.graph.node? (φ n) = t.graph.node? n
  edge : ∀ p n w, t.Live p → t.Live n →
    ((∃ e ∈ t.graph.edges, e.src = p ∧ e.tgt = n ∧ e.w = w) ↔ ∃ e ∈ u.graph.edges, e.src = φ p ∧ e.tgt = φ n ∧ e.w = w)

/-- There are no secondary edges. -/
def NoSecondary (t : Tree) : Prop := ∀ e ∈ t.graph.edges, e.w.isPrimary = true

/-- No node has two secondary parents. -/
def OneSecondary (t : Tree) : Prop :=
  ∀ e ∈ t.graph.edges, ∀ e' ∈ t.graph.edges, e.w.isPrimary = false → e'.w.isPrimary = false → e.tgt = e'.tgt → e = e'

end Tree
end Lumberjack
